import Verif.Proof.LineEndingsServices
import Verif.Proof.LineEndingsSel
import Verif.Proof.Moved
import Verif.Props.Folding
import Verif.Props.TextDocument

/-! # `\r\n` instead of `\n`: C92 -/

namespace Html.Props
open Html Spec

/-- **C92.** With `\r\n` for `\n` the tokens are the same, at the same places of the text; a panic stays a panic. -/
theorem C92_tokens (u : Uni) (pseudo cs : Bool) (cps : List Nat) (src : Str) (hu : Utf8 cps src) (o : Nat) (st : SS) :
    tokens ⟨u, crlf src, pseudo, cs⟩ (.new (crOff src o) st) =
      (tokens ⟨u, src, pseudo, cs⟩ (.new o st)).map (List.map (crTok src)) :=
  ln_tokens (c := ⟨u, src, pseudo, cs⟩) (c' := ⟨u, crlf src, pseudo, cs⟩) ⟨rfl, rfl, rfl, rfl, fit_of_utf8 hu⟩ o st

/-- **C92.** The tree is the same, at the same places of the text; only inside of attribute values the line endings show. -/
theorem C92_tree (u : Uni) (cs : Bool) (void : List Str) (cps : List Nat) (src : Str) (hu : Utf8 cps src) :
    parse u cs void (crlf src) = (parse u cs void src).map (crNodes src) :=
  ln_parse u cs void hu

/-- **C92.** What stands between two places of a text stands between the same places of the other one. -/
theorem C92_places (src : Str) (i j : Nat) (h : i ≤ j) :
    bytesIn (crlf src) (crOff src i) (crOff src j) = crlf (bytesIn src i j) ∧ crOff src src.length = (crlf src).length :=
  ⟨crlf_bytesIn h, crOff_length src⟩

/-- **C92.** In the reference documents the same places have the same positions, unless there are `\r` in the first text. -/
theorem C92_positions (src : Str) (h : 13 ∉ src) : OtherEnds (.ref src) (.ref (crlf src)) :=
  ⟨rfl, refPosAt_crlf h⟩

/-- **C92.** For the same positions the services give the same answers: the highlights, the folding ranges, the ranges of
symbols, and where the names of the tags in question stand on one line with the brackets, the linked ranges, the matching tag
and the edits of a renaming. -/
theorem C92_services (u : Uni) (cs : Bool) (void : List Str) (cps : List Nat) (d d' : TextDoc) (roots : List Node)
    (hu : Utf8 cps d.text) (hd : OtherEnds d d') (hl : Lawful d) (hl' : Lawful d') (hp : parse u cs void d.text = .ok roots) :
    ∃ roots', parse u cs void d'.text = .ok roots' ∧
      (∀ limit, getFoldingRanges u cs void d' limit = getFoldingRanges u cs void d limit) ∧
      Symbol.rangesAll (findDocumentSymbols2 d' roots') = Symbol.rangesAll (findDocumentSymbols2 d roots) ∧
      ∀ o, o ≤ d.text.length → isBoundary d.text o = true →
        findDocumentHighlights u cs d' (d.posAt o) roots' = findDocumentHighlights u cs d (d.posAt o) roots ∧
        ((∀ n ps, findNodeAt roots o = some (n, ps) → OnOneLine d.text n) →
          findLinkedEditingRanges d' (d.posAt o) roots' = findLinkedEditingRanges d (d.posAt o) roots ∧
          findMatchingTagPosition d' (d.posAt o) roots' = findMatchingTagPosition d (d.posAt o) roots ∧
          ∀ name, doRename d' (d.posAt o) name roots' = doRename d (d.posAt o) name roots) := by
  refine ⟨crNodes d.text roots, ?_, fun limit => ln_folding void hd hu limit, ln_symbols hd, fun o ho hb => ?_⟩
  · rw [hd.text, ln_parse u cs void hu, hp]; rfl
  · obtain ⟨h1, h2⟩ := offset_crlf hd hl hl' ho hb
    have h3 : d'.offsetAt (d.posAt o) = crOff d.text (d.offsetAt (d.posAt o)) := by rw [h1, h2]
    refine ⟨ln_highlights hd (fit_of_utf8 hu) h3, fun hn => ?_⟩
    have hn' : ∀ n ps, findNodeAt roots (d.offsetAt (d.posAt o)) = some (n, ps) → OnOneLine d.text n := by rw [h1]; exact hn
    exact ⟨ln_linked hd h3 hn', ln_matching hd h3 hn', ln_rename hd h3 hn'⟩

/-- `<p\n a="\n">\n</p>` and what becomes of it. -/
example : Utf8 b!"<p\n a=\"\n\">\n</p>" b!"<p\n a=\"\n\">\n</p>" ∧
    crlf b!"<p\n a=\"\n\">\n</p>" = b!"<p\r\n a=\"\r\n\">\r\n</p>" := by
  constructor
  · unfold Utf8; decide
  · decide
example (u : Uni) (cs : Bool) : parse u cs [] b!"<p\n a=\"\n\">\n</p>" =
      .ok [⟨some b!"p", 0, 15, [], true, some 10, some 11, [(b!"a", ⟨some b!"\"\n\"", 4⟩)]⟩] ∧
    parse u cs [] b!"<p\r\n a=\"\r\n\">\r\n</p>" =
      .ok [⟨some b!"p", 0, 18, [], true, some 12, some 14, [(b!"a", ⟨some b!"\"\r\n\"", 5⟩)]⟩] := by
  constructor <;> cases cs <;> krfl
example : OtherEnds (.ref b!"<p>\n\n</p>") (.ref b!"<p>\r\n\r\n</p>") := C92_positions _ (by decide)
example (u : Uni) : getFoldingRanges u false [] (.ref b!"<p>\r\n\r\n</p>") none = .ok [⟨0, 1, none⟩] := by krfl
example : OnOneLine b!"<p>\n\n</p>" ⟨some b!"p", 0, 9, [], true, some 3, some 5, []⟩ := by
  constructor
  · decide
  · intro e he
    cases he
    decide
example : returns (parse exUni false [] b!"<p>\r\n\r\n</p>") (fun roots =>
    findLinkedEditingRanges (.ref b!"<p>\r\n\r\n</p>") ⟨0, 1⟩ roots = some [⟨⟨0, 1⟩, ⟨0, 2⟩⟩, ⟨⟨2, 2⟩, ⟨2, 3⟩⟩]) = true := by
  decide +kernel

/-- **C92 fails** for linked editing where a line ends between `<` and the name: the service takes the bytes directly behind
`<` for the name, here the line ending, and the range ends inside of `\r\n`. -/
theorem C92_linked_limit (u : Uni) (cs : Bool) :
    parse u cs [] b!"<\nb></b>" = .ok [⟨some b!"b", 0, 8, [], true, some 4, some 4, []⟩] ∧
    findLinkedEditingRanges (.ref b!"<\nb></b>") ⟨0, 1⟩ [⟨some b!"b", 0, 8, [], true, some 4, some 4, []⟩] =
      some [⟨⟨0, 1⟩, ⟨1, 0⟩⟩, ⟨⟨1, 4⟩, ⟨1, 5⟩⟩] ∧
    parse u cs [] b!"<\r\nb></b>" = .ok [⟨some b!"b", 0, 9, [], true, some 5, some 5, []⟩] ∧
    findLinkedEditingRanges (.ref b!"<\r\nb></b>") ⟨0, 1⟩ [⟨some b!"b", 0, 9, [], true, some 5, some 5, []⟩] =
      some [⟨⟨0, 1⟩, ⟨0, 2⟩⟩, ⟨⟨1, 4⟩, ⟨1, 5⟩⟩] := by
  refine ⟨?_, by krfl, ?_, by krfl⟩ <;> cases cs <;> krfl

/-- **C92.** Selection ranges at the same places are the same, or the request panics in both documents, unless a cursor is in
an end tag that has no `>` and ends with the end of a line. -/
theorem C92_selection (u : Uni) (cs : Bool) (void : List Str) (cps : List Nat) (d d' : TextDoc) (roots : List Node) (os : List Nat)
    (hu : Utf8 cps d.text) (hd : OtherEnds d d') (hl : Lawful d) (hl' : Lawful d') (ho : Ordered d) (ho' : Ordered d')
    (hp : parse u cs void d.text = .ok roots) (hos : ∀ o ∈ os, o ≤ d.text.length ∧ isBoundary d.text o = true)
    (hcut : ∀ o ∈ os, ∀ n, InForest roots n → Covers n o → CutOnLine d.text n o) :
    ∃ roots', parse u cs void d'.text = .ok roots' ∧
      getSelectionRanges u cs d' roots' (os.map d.posAt) = getSelectionRanges u cs d roots (os.map d.posAt) := by
  refine ⟨crNodes d.text roots, by rw [hd.text, ln_parse u cs void hu, hp]; rfl, ?_⟩
  refine ln_selections hd hl hl' ho ho' hu hp (fun p h => ?_) (fun p h n ps hn => ?_) <;>
    obtain ⟨o, hm, rfl⟩ := List.mem_map.1 h <;>
    obtain ⟨h1, h2⟩ := offset_crlf hd hl hl' (hos o hm).1 (hos o hm).2
  · rw [h1, h2]
  · rw [h1] at hn ⊢
    obtain ⟨g1, g2⟩ := findNodeAt_mem hp hn
    exact hcut o hm n g1 g2

/-- The hypotheses of `C92_selection`, and both answers, with the cursor in the value of `<p\n a="\n">\n</p>`. -/
example : Ordered (.ref b!"<p\n a=\"\n\">\n</p>") ∧ OtherEnds (.ref b!"<p\n a=\"\n\">\n</p>") (.ref b!"<p\r\n a=\"\r\n\">\r\n</p>") ∧
    CutOnLine b!"<p\n a=\"\n\">\n</p>" ⟨some b!"p", 0, 15, [], true, some 10, some 11, [(b!"a", ⟨some b!"\"\n\"", 4⟩)]⟩ 7 :=
  ⟨ref_ordered _, C92_positions _ (by decide), fun e he h => by cases he; exact absurd h (by decide)⟩
example : returns (parse exUni false [] b!"<p\n a=\"\n\">\n</p>" >>= fun roots =>
      getSelectionRanges exUni false (.ref b!"<p\n a=\"\n\">\n</p>") roots [⟨1, 4⟩]) (fun l => l =
      [.inner ⟨⟨1, 4⟩, ⟨2, 0⟩⟩ (.inner ⟨⟨1, 3⟩, ⟨2, 1⟩⟩ (.inner ⟨⟨1, 1⟩, ⟨2, 1⟩⟩ (.inner ⟨⟨0, 1⟩, ⟨2, 1⟩⟩ (.top ⟨⟨0, 0⟩, ⟨3, 4⟩⟩))))]) = true ∧
    returns (parse exUni false [] b!"<p\r\n a=\"\r\n\">\r\n</p>" >>= fun roots =>
      getSelectionRanges exUni false (.ref b!"<p\r\n a=\"\r\n\">\r\n</p>") roots [⟨1, 4⟩]) (fun l => l =
      [.inner ⟨⟨1, 4⟩, ⟨2, 0⟩⟩ (.inner ⟨⟨1, 3⟩, ⟨2, 1⟩⟩ (.inner ⟨⟨1, 1⟩, ⟨2, 1⟩⟩ (.inner ⟨⟨0, 1⟩, ⟨2, 1⟩⟩ (.top ⟨⟨0, 0⟩, ⟨3, 4⟩⟩))))]) = true :=
  ⟨by decide +kernel, by decide +kernel⟩

/-- **C92 fails** for selection ranges in an end tag without `>` that ends with the end of a line: the service takes the byte in
front of the next `<` for the `>`, and with `\r\n` the range ends inside of the line ending. -/
theorem C92_selection_limit (u : Uni) (cs : Bool) :
    parse u cs [] b!"<p></p\n<i>" = .ok [⟨some b!"p", 0, 7, [], true, some 3, some 3, []⟩,
      ⟨some b!"i", 7, 10, [], false, some 10, none, []⟩] ∧
    getSelectionRanges u cs (.ref b!"<p></p\n<i>") [⟨some b!"p", 0, 7, [], true, some 3, some 3, []⟩,
      ⟨some b!"i", 7, 10, [], false, some 10, none, []⟩] [⟨0, 6⟩] =
      .ok [.inner ⟨⟨0, 5⟩, ⟨0, 6⟩⟩ (.inner ⟨⟨0, 0⟩, ⟨1, 0⟩⟩ (.top ⟨⟨0, 0⟩, ⟨1, 3⟩⟩))] ∧
    parse u cs [] b!"<p></p\r\n<i>" = .ok [⟨some b!"p", 0, 8, [], true, some 3, some 3, []⟩,
      ⟨some b!"i", 8, 11, [], false, some 11, none, []⟩] ∧
    getSelectionRanges u cs (.ref b!"<p></p\r\n<i>") [⟨some b!"p", 0, 8, [], true, some 3, some 3, []⟩,
      ⟨some b!"i", 8, 11, [], false, some 11, none, []⟩] [⟨0, 6⟩] =
      .ok [.inner ⟨⟨0, 5⟩, ⟨0, 7⟩⟩ (.inner ⟨⟨0, 0⟩, ⟨1, 0⟩⟩ (.top ⟨⟨0, 0⟩, ⟨1, 3⟩⟩))] := by
  refine ⟨?_, by krfl, ?_, by krfl⟩ <;> cases cs <;> krfl

end Html.Props
