import Verif.Proof.LineEndingsTyping
import Verif.Props.LineEndings
import Verif.Props.Completion

/-! # Closing tags and quotes while typing, with `\r\n` instead of `\n`: C105 -/

namespace Html.Props
open Html Spec

section
variable (u : Uni) (cs : Bool) (void : List Str) (e : CompEnv) (cps : List Nat) (d d' : TextDoc) (roots : List Node) (o : Nat)

/-- **C105.** The closing tag that is inserted at the same place is the same with either line ending. -/
theorem C105_tag_complete (hu : Utf8 cps d.text) (hd : OtherEnds d d') (hl : Lawful d) (hl' : Lawful d')
    (hp : parse u cs void d.text = .ok roots) (ho : o ≤ d.text.length) (hb : isBoundary d.text o = true) :
    ∃ roots', parse u cs void d'.text = .ok roots' ∧
      doTagComplete e d' (d.posAt o) roots' = doTagComplete e d (d.posAt o) roots :=
  ⟨crNodes d.text roots, by rw [hd.text, ln_parse u cs void hu, hp]; rfl, tagComplete_cr hu hd hl hl' ho hb⟩

/-- **C105.** The same for the quotes of an attribute value. -/
theorem C105_quote_complete (hu : Utf8 cps d.text) (hd : OtherEnds d d') (hl : Lawful d) (hl' : Lawful d')
    (hp : parse u cs void d.text = .ok roots) (ho : o ≤ d.text.length) (hb : isBoundary d.text o = true) :
    ∃ roots', parse u cs void d'.text = .ok roots' ∧
      doQuoteComplete e d' (d.posAt o) roots' = doQuoteComplete e d (d.posAt o) roots :=
  ⟨crNodes d.text roots, by rw [hd.text, ln_parse u cs void hu, hp]; rfl, quoteComplete_cr hu hd hl hl' ho hb⟩

end

/-- The two documents of the examples differ in their line endings only. -/
example : OtherEnds (.ref b!"<i\n>\n</") (.ref (crlf b!"<i\n>\n</")) ∧ OtherEnds (.ref b!"<i\n a=>") (.ref (crlf b!"<i\n a=>")) :=
  ⟨C92_positions _ (by decide), C92_positions _ (by decide)⟩

/-- Behind `>`, behind `</`, and with the cursor in front of a line end. -/
example (u : Uni) (cs : Bool) :
    (∀ src ∈ [b!"<i\n>\n</", crlf b!"<i\n>\n</"], (parse u cs [] src >>= fun roots =>
      doTagComplete { exComp with uni := u, caseSensitive := cs } (.ref src) ⟨1, 1⟩ roots) = .ok (some b!"$0</i>")) ∧
    (∀ src ∈ [b!"<i\n>\n</", crlf b!"<i\n>\n</"], (parse u cs [] src >>= fun roots =>
      doTagComplete { exComp with uni := u, caseSensitive := cs } (.ref src) ⟨2, 2⟩ roots) = .ok (some b!"i>")) ∧
    (∀ src ∈ [b!"<i>\n</\n", crlf b!"<i>\n</\n"], (parse u cs [] src >>= fun roots =>
      doTagComplete { exComp with uni := u, caseSensitive := cs } (.ref src) ⟨1, 2⟩ roots) = .ok (some b!"i>")) := by
  refine ⟨?_, ?_, ?_⟩ <;> intro src hs <;> simp only [List.mem_cons, List.not_mem_nil, or_false] at hs <;>
    rcases hs with rfl | rfl <;> cases cs <;> krfl

/-- Behind `a=`. -/
example (u : Uni) (cs : Bool) :
    ∀ src ∈ [b!"<i\n a=>", crlf b!"<i\n a=>"], (parse u cs [] src >>= fun roots =>
      doQuoteComplete { exComp with uni := u, caseSensitive := cs } (.ref src) ⟨1, 3⟩ roots) = .ok (some b!"\"$1\"") := by
  intro src hs
  simp only [List.mem_cons, List.not_mem_nil, or_false] at hs
  rcases hs with rfl | rfl <;> cases cs <;> krfl

/-- **C105 needs** a place of the text: a position given as an offset from the start lies elsewhere in the other text. -/
theorem C105_needs_place (u : Uni) (cs : Bool) :
    (parse u cs [] b!"<i\n>" >>= fun roots => doTagComplete { exComp with uni := u, caseSensitive := cs } (.ref b!"<i\n>")
      ((TextDoc.ref b!"<i\n>").posAt 4) roots) = .ok (some b!"$0</i>") ∧
    (parse u cs [] b!"<i\r\n>" >>= fun roots => doTagComplete { exComp with uni := u, caseSensitive := cs } (.ref b!"<i\r\n>")
      ((TextDoc.ref b!"<i\r\n>").posAt 4) roots) = .ok none := by
  cases cs <;> exact ⟨by krfl, by krfl⟩

end Html.Props
