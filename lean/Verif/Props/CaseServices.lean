import Verif.Proof.CaseServices
import Verif.Props.Folding

/-! # Services do not depend on the case of letters: C91 -/

namespace Html.Props
open Html Spec

/-- **C91.** Linked editing, matching tags, rename, highlights and selection ranges give the same answers for both spellings,
and the symbols have the same ranges and nesting. -/
theorem C91_services (u : Uni) (void : List Str) (d d' : TextDoc) (roots : List Node) (hu : LowersLetters u)
    (hd : SameButCase d d')
    (hv : ∀ ts, tokens (parserCfg u false d.text) (.new 0 .WithinContent) = .ok ts → ∀ t ∈ ts, t.type = .StartTag →
      (bytesIn d'.text t.offset t.stop ∈ void ↔ bytesIn d.text t.offset t.stop ∈ void))
    (hp : parse u false void d.text = .ok roots) :
    ∃ roots', parse u false void d'.text = .ok roots' ∧
      (∀ p, findLinkedEditingRanges d' p roots' = findLinkedEditingRanges d p roots) ∧
      (∀ p, findMatchingTagPosition d' p roots' = findMatchingTagPosition d p roots) ∧
      (∀ p name, doRename d' p name roots' = doRename d p name roots) ∧
      (∀ p, findDocumentHighlights u false d' p roots' = findDocumentHighlights u false d p roots) ∧
      (∀ ps, getSelectionRanges u false d' roots' ps = getSelectionRanges u false d roots ps) ∧
      Symbol.rangesAll (findDocumentSymbols2 d' roots') = Symbol.rangesAll (findDocumentSymbols2 d roots) := by
  obtain ⟨roots', h1, h2⟩ := C87_tree u void d.text d'.text roots hu hd.letters hd.raw hv hp
  exact ⟨roots', h1, linked_alike hd h2, matching_alike hd h2, rename_alike hd h2, highlights_alike hu hd h2,
    selection_alike hu hd h2, symbols_alike hd h2⟩

/-- **C91.** In the reference documents positions do not depend on the case of letters. -/
theorem C91_positions (src src' : Str) (h : SameLetters src src') (hr : SameRawTags src src') :
    SameButCase (.ref src) (.ref src') :=
  ⟨h, hr, funext fun o => same_refPosAt h o, funext fun p => same_refOffsetAt h p.line p.character⟩

/-- `<a><B></b></A>` and `<A><b></B></a>`. -/
example : SameButCase (.ref b!"<a><B></b></A>") (.ref b!"<A><b></B></a>") :=
  C91_positions _ _ (by unfold SameLetters; decide)
    (C87_without_raw_tags _ _ (by unfold SameLetters; decide) (by
      intro o
      by_cases h : o < 14
      · revert h; revert o; decide
      · rw [List.drop_eq_nil_of_le (by simp [asciiLower]; omega)]; decide))
example : returns (parse exUni false [] b!"<A><b></B></a>") (fun roots =>
    findLinkedEditingRanges (.ref b!"<A><b></B></a>") ⟨0, 4⟩ roots = some [⟨⟨0, 4⟩, ⟨0, 5⟩⟩, ⟨⟨0, 8⟩, ⟨0, 9⟩⟩]) = true := by
  decide +kernel

/-- **C91 fails** for folding: it compares names with their case even where the parser does not, so that `<P>…</p>` is one
element and has no folding range. -/
theorem C91_folding_limit (u : Uni) :
    SameLetters b!"<p>\n\n</p>" b!"<P>\n\n</p>" ∧
    parse u false [] b!"<P>\n\n</p>" = .ok [⟨some b!"P", 0, 9, [], true, some 3, some 5, []⟩] ∧
    getFoldingRanges u false [] (.ref b!"<p>\n\n</p>") none = .ok [⟨0, 1, none⟩] ∧
    getFoldingRanges u false [] (.ref b!"<P>\n\n</p>") none = .ok [] :=
  ⟨by unfold SameLetters; decide, by krfl, by krfl, by krfl⟩

end Html.Props
