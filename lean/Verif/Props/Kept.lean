import Verif.Proof.Kept
import Verif.Props.Behind
import Verif.Props.Locality

/-! # Folding ranges and symbols stay when more text is put behind a document (C95) -/

namespace Html.Props
open Html Html.Spec

/-- C95: if a document ends with the `>` of a tag, a comment or a doctype then its folding ranges are the first ones of every
document that goes on behind it. -/
theorem C95_folding (u : Uni) (cs : Bool) (void : List Str) (d d' : TextDoc) (i : List Tok) (t : Tok) (ranges' : List Fold)
    (hb : BeginAlike d.text d d') (he : EndsBracket ⟨u, d.text, false, cs⟩ 0 .WithinContent i t)
    (h : getFoldingRanges u cs void d' none = .ok ranges') :
    ∃ ranges, getFoldingRanges u cs void d none = .ok ranges ∧ ranges <+: ranges' :=
  folding_kept hb rfl he h

/-- C95: if the document leaves no element open then its symbols are the first ones as well, nested or in a list. -/
theorem C95_symbols (u : Uni) (cs : Bool) (void : List Str) (d d' : TextDoc) (roots roots' : List Node)
    (hb : BeginAlike d.text d d') (hc : ClosedText u cs void d.text roots) (h : parse u cs void d'.text = .ok roots') :
    findDocumentSymbols2 d roots <+: findDocumentSymbols2 d' roots' ∧
    findDocumentSymbols d roots <+: findDocumentSymbols d' roots' := by
  obtain ⟨y, hy⟩ := hb.right
  rw [hy, C68_concat u cs void d.text y roots hc] at h
  cases hm : parse u cs void y with
  | error e => rw [hm] at h; cases h
  | ok more =>
    rw [hm] at h
    cases h
    exact ⟨symbols_kept hb hc.tree, flat_kept hb hc.tree⟩

/-- C95: documents of the reference implementation: whatever is put behind a document that ends with such a `>`. -/
theorem C95_reference (u : Uni) (cs : Bool) (a y : Str) (i : List Tok) (t : Tok)
    (he : EndsBracket ⟨u, a, false, cs⟩ 0 .WithinContent i t) : BeginAlike (TextDoc.ref a).text (.ref a) (.ref (a ++ y)) := by
  obtain ⟨x, hx, _⟩ := he.split
  have hx : a = x ++ [62] := hx
  have := (C94_reference a [] y (by rw [hx]; simp)).1
  rw [List.append_nil] at this
  exact this

/-- The text of a document with a `div` that is still open, in which a `p` on three lines is complete. -/
def exKept : Str := b!"<div>\n<p>\n\n</p>"

theorem exKept_ends (u : Uni) (cs : Bool) : EndsBracket ⟨u, exKept, false, cs⟩ 0 .WithinContent
    [⟨.StartTagOpen, 0, 1, none, .AfterOpeningStartTag⟩, ⟨.StartTag, 1, 4, none, .WithinTag⟩,
      ⟨.StartTagClose, 4, 5, none, .WithinContent⟩, ⟨.Content, 5, 6, none, .WithinContent⟩,
      ⟨.StartTagOpen, 6, 7, none, .AfterOpeningStartTag⟩, ⟨.StartTag, 7, 8, none, .WithinTag⟩,
      ⟨.StartTagClose, 8, 9, none, .WithinContent⟩, ⟨.Content, 9, 11, none, .WithinContent⟩,
      ⟨.EndTagOpen, 11, 13, none, .AfterOpeningEndTag⟩, ⟨.EndTag, 13, 14, none, .WithinEndTag⟩]
    ⟨.EndTagClose, 14, 15, none, .WithinContent⟩ where
  utf8 := ⟨exKept, by decide, by show exKept = exKept.flatMap encodeCP; decide⟩
  toks := by cases cs <;> krfl
  kind := rfl
  nonempty := by decide

/-- The range of the `p` stays the first one when the `div` is closed on a later line. -/
example (u : Uni) (cs : Bool) : getFoldingRanges u cs [] (.ref exKept) none = .ok [⟨1, 2, none⟩] ∧
    getFoldingRanges u cs [] (.ref (exKept ++ b!"\n</div>")) none = .ok [⟨1, 2, none⟩, ⟨0, 3, none⟩] := by
  rw [folding_ref, folding_ref]
  constructor <;> cases cs <;> krfl

/-- With a limit on the number of ranges they do not stay. -/
theorem C95_limit (u : Uni) (cs : Bool) : getFoldingRanges u cs [] (.ref exKept) (some 1) = .ok [⟨1, 2, none⟩] ∧
    getFoldingRanges u cs [] (.ref (exKept ++ b!"\n</div>")) (some 1) = .ok [⟨0, 3, none⟩] := by
  rw [folding_ref, folding_ref]
  constructor <;> cases cs <;> krfl

/-- The document has to end with such a `>`: the range of a comment grows until the comment is closed. -/
theorem C95_needs_bracket (u : Uni) (cs : Bool) :
    getFoldingRanges u cs [] (.ref b!"<!--\n") none = .ok [⟨0, 1, some .comment⟩] ∧
    getFoldingRanges u cs [] (.ref (b!"<!--\n" ++ b!"\n-->")) none = .ok [⟨0, 2, some .comment⟩] := by
  rw [folding_ref, folding_ref]
  constructor <;> cases cs <;> krfl

/-- For symbols no element may be left open: the range of an element grows until it is closed. -/
theorem C95_needs_closed (u : Uni) (cs : Bool) :
    (parse u cs [] b!"<p>").map (findDocumentSymbols (.ref b!"<p>")) = .ok [⟨b!"p", ⟨⟨0, 0⟩, ⟨0, 3⟩⟩, none⟩] ∧
    (parse u cs [] (b!"<p>" ++ b!"</p>")).map (findDocumentSymbols (.ref (b!"<p>" ++ b!"</p>"))) =
      .ok [⟨b!"p", ⟨⟨0, 0⟩, ⟨0, 7⟩⟩, none⟩] := by
  constructor <;> cases cs <;> krfl

/-- A document that leaves no element open, with a text behind it. -/
example (u : Uni) (cs : Bool) : (parse u cs [] b!"<p id=a></p>").map (findDocumentSymbols (.ref b!"<p id=a></p>")) =
      .ok [⟨b!"p#a", ⟨⟨0, 0⟩, ⟨0, 12⟩⟩, none⟩] ∧
    (parse u cs [] (b!"<p id=a></p>" ++ b!"<i>")).map (findDocumentSymbols (.ref (b!"<p id=a></p>" ++ b!"<i>"))) =
      .ok [⟨b!"p#a", ⟨⟨0, 0⟩, ⟨0, 12⟩⟩, none⟩, ⟨b!"i", ⟨⟨0, 12⟩, ⟨0, 15⟩⟩, none⟩] := by
  constructor <;> cases cs <;> krfl

end Html.Props
