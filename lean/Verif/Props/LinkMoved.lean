import Verif.Proof.LinkMoved
import Verif.Props.Links
import Verif.Props.FoldMoved

/-! # C101: the links of complete parts add up -/

namespace Html.Props
open Html Html.Spec

section
variable (e : LinkEnv) (pre : Str) (e0 : Pos) (d0 d d' : TextDoc) (i : List Tok) (t : Tok) (links' : List DocLink)

/-- C101: if a text ends with the `>` of a tag, a comment or a doctype, outside raw text, and has no `base` tag, then the links
of a document behind it are those of the text and then those of the document alone, at the moved places.  Links into the document
may lead to another place in it, because they find the ids of both parts. -/
theorem C101_links (hf : Forgiving e) (h0 : d0.text = pre) (ha : BeginAlike pre d0 d') (hb : PutBehind pre e0 d d')
    (he : EndsBracket ⟨e.uni, pre, false, e.caseSensitive⟩ 0 .WithinContent i t) (hs : t.state = .WithinContent)
    (hn : ∀ x ∈ i ++ [t], isBaseTag e pre x = false) (h : findDocumentLinks e d' = .ok links') :
    ∃ front links a b, findDocumentLinks e d0 = .ok front ∧ findDocumentLinks e d = .ok links ∧ links' = a ++ b ∧
      SameLinks e (fun r => r) front a ∧ SameLinks e (Range.after e0) links b :=
  links_moved hf h0 ha hb he hs hn h

/-- C101: if no link of the parts leads into the document, the lists add up. -/
theorem C101_links_elsewhere (front links : List DocLink) (hf : Forgiving e) (h0 : d0.text = pre) (ha : BeginAlike pre d0 d')
    (hb : PutBehind pre e0 d d') (he : EndsBracket ⟨e.uni, pre, false, e.caseSensitive⟩ 0 .WithinContent i t)
    (hs : t.state = .WithinContent) (hn : ∀ x ∈ i ++ [t], isBaseTag e pre x = false)
    (h : findDocumentLinks e d' = .ok links') (h1 : findDocumentLinks e d0 = .ok front) (h2 : findDocumentLinks e d = .ok links)
    (hl : ∀ x ∈ front ++ links, ¬ InDocument e x.target) :
    links' = front ++ links.map (fun x => ⟨Range.after e0 x.range, x.target⟩) := by
  obtain ⟨f, l, a, b, g1, g2, rfl, g3, g4⟩ := C101_links e pre e0 d0 d d' i t links' hf h0 ha hb he hs hn h
  rw [h1] at g1
  rw [h2] at g2
  cases g1
  cases g2
  rw [g3.elsewhere (fun x hx => hl x (by simp [hx])), g4.elsewhere (fun x hx => hl x (by simp [hx]))]
  simp

/-- C101: for documents of the reference implementation there are no conditions on positions. -/
theorem C101_reference (x : Str) (hf : Forgiving e)
    (he : EndsBracket ⟨e.uni, pre, false, e.caseSensitive⟩ 0 .WithinContent i t) (hs : t.state = .WithinContent)
    (hn : ∀ x ∈ i ++ [t], isBaseTag e pre x = false) (h : findDocumentLinks e (.ref (pre ++ x)) = .ok links') :
    ∃ front links a b, findDocumentLinks e (.ref pre) = .ok front ∧ findDocumentLinks e (.ref x) = .ok links ∧ links' = a ++ b ∧
      SameLinks e (fun r => r) front a ∧ SameLinks e (Range.after (refPosAt pre pre.length)) links b := by
  refine C101_links e pre (refPosAt pre pre.length) (.ref pre) (.ref x) (.ref (pre ++ x)) i t links' hf rfl
    (C95_reference e.uni e.caseSensitive pre x i t he) (ref_behind ?_) he hs hn h
  obtain ⟨y, hy, _⟩ := he.split
  have hy : pre = y ++ [62] := hy
  rw [hy]; simp

end

/-- Data for the example: every text is accepted as a URI. -/
def exAllLinks : LinkEnv := { exLinkEnv with lib := exLib, resolve := exLib.resolveReference }

/-- The front has a line break and a link in its second line. -/
example :
    EndsBracket ⟨exAllLinks.uni, b!"\n<a href=x>", false, false⟩ 0 .WithinContent
      [⟨.Content, 0, 1, none, .WithinContent⟩, ⟨.StartTagOpen, 1, 2, none, .AfterOpeningStartTag⟩,
        ⟨.StartTag, 2, 3, none, .WithinTag⟩, ⟨.Whitespace, 3, 4, none, .WithinTag⟩,
        ⟨.AttributeName, 4, 8, none, .AfterAttributeName⟩, ⟨.DelimiterAssign, 8, 9, none, .BeforeAttributeValue⟩,
        ⟨.AttributeValue, 9, 10, none, .WithinTag⟩] ⟨.StartTagClose, 10, 11, none, .WithinContent⟩ ∧
    returns (findDocumentLinks exAllLinks (.ref b!"\n<a href=x>")) (fun l => l =
      [⟨⟨⟨1, 8⟩, ⟨1, 9⟩⟩, some b!"http://h/x"⟩]) = true ∧
    returns (findDocumentLinks exAllLinks (.ref b!"<img src=y>")) (fun l => l =
      [⟨⟨⟨0, 9⟩, ⟨0, 10⟩⟩, some b!"http://h/y"⟩]) = true ∧
    returns (findDocumentLinks exAllLinks (.ref (b!"\n<a href=x>" ++ b!"<img src=y>"))) (fun l => l =
      [⟨⟨⟨1, 8⟩, ⟨1, 9⟩⟩, some b!"http://h/x"⟩, ⟨⟨⟨1, 19⟩, ⟨1, 20⟩⟩, some b!"http://h/y"⟩]) = true :=
  ⟨⟨⟨b!"\n<a href=x>", by decide, rfl⟩, by krfl, rfl, by decide⟩, by decide +kernel, by decide +kernel, by decide +kernel⟩

/-- The other hypotheses: a parser of URIs that accepts all texts, and no `base` tag. -/
example : Forgiving exAllLinks ∧
    isBaseTag exAllLinks b!"\n<a href=x>" ⟨.StartTag, 2, 3, none, .WithinTag⟩ = false ∧
    ¬ InDocument exAllLinks (some b!"http://h/x") := by
  refine ⟨⟨fun _ _ _ _ _ => rfl, fun _ _ _ => rfl, fun _ => rfl⟩, by decide, ?_⟩
  rintro (h | ⟨p, h⟩)
  · revert h; decide
  · have := congrArg (fun o => (o.getD []).take 10) h
    revert this
    simp [positionUri, exAllLinks, exLinkEnv, slashes]

/-- C101: a `base` tag in front changes the targets behind it. -/
theorem C101_needs_no_base :
    returns (findDocumentLinks exLinkEnv (.ref b!"<base href=z/ >")) (fun l => l = []) = true ∧
    returns (findDocumentLinks exLinkEnv (.ref b!"<img src=y>")) (fun l => l =
      [⟨⟨⟨0, 9⟩, ⟨0, 10⟩⟩, some b!"http://h/y"⟩]) = true ∧
    returns (findDocumentLinks exLinkEnv (.ref (b!"<base href=z/ >" ++ b!"<img src=y>"))) (fun l => l =
      [⟨⟨⟨0, 24⟩, ⟨0, 25⟩⟩, some b!"http://h/z/y"⟩]) = true :=
  ⟨by decide +kernel, by decide +kernel, by decide +kernel⟩

/-- C101: a link in front finds an id behind it. -/
theorem C101_finds_ids_behind :
    returns (findDocumentLinks exLinkEnv (.ref b!"<a href=#b>")) (fun l => l =
      [⟨⟨⟨0, 8⟩, ⟨0, 10⟩⟩, some b!"http://h/a.html"⟩]) = true ∧
    returns (findDocumentLinks exLinkEnv (.ref (b!"<a href=#b>" ++ b!"<p id=b>"))) (fun l => l =
      [⟨⟨⟨0, 8⟩, ⟨0, 10⟩⟩, some b!"http://h/a.html#1,18"⟩]) = true :=
  ⟨by decide +kernel, by decide +kernel⟩

end Html.Props
