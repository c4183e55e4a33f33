import Verif.Proof.TextDocument

/-! # Properties of the text document (C50) -/

namespace Html.Props
open Html Spec

/-! ### C50 -/

/-- C50: the reference text document satisfies the laws the services rely on, for every
text: offsets of character boundaries survive the round trip, positions are monotone in the
offset, every position denotes a character boundary of the text, and offsets behind the end
mean the end. -/
theorem C50_reference_document_lawful (src : Str) : Lawful (.ref src) where
  roundTrip _ h hb := ref_roundTrip h hb
  mono _ _ h := ref_mono h
  inRange p := ref_inRange src p.line p.character
  clamp _ h := ref_clamp h

/-- C50: the line of an offset is the number of line breaks in front of it, its column the
number of UTF-16 code units between the start of the line and the offset. -/
theorem C50_position_counts (src : Str) (o : Nat) (h : o ≤ src.length) :
    ((TextDoc.ref src).posAt o).line = breaksBefore src o ∧
    ∀ s, LineStart src o s → ((TextDoc.ref src).posAt o).character = utf16Len (bytesIn src s o) :=
  ⟨ref_line h, fun _ hs => ref_character h hs⟩

/-- C50: in a lawful document the position is strictly monotone, so injective, on character
boundaries. -/
theorem C50_strictly_monotone (d : TextDoc) (hd : Lawful d) (o o' : Nat) (h : o' ≤ d.text.length)
    (hb : isBoundary d.text o = true) (hb' : isBoundary d.text o' = true) (hlt : o < o') :
    PosLt (d.posAt o) (d.posAt o') := by
  have h1 := hd.mono o o' (by omega)
  have h2 := hd.roundTrip o (by omega) hb
  have h3 := hd.roundTrip o' h hb'
  unfold PosLe at h1
  unfold PosLt
  rcases h1 with h1 | ⟨h1, h4⟩
  · exact .inl h1
  · rcases Nat.lt_or_eq_of_le h4 with h4 | h4
    · exact .inr ⟨h1, h4⟩
    · exfalso
      have : d.posAt o = d.posAt o' := by
        cases ho : d.posAt o; cases ho' : d.posAt o'
        rw [ho, ho'] at h1 h4
        simp at h1 h4; simp [h1, h4]
      rw [this, h3] at h2; omega

example : (TextDoc.ref b!"a\r\nb😀é\rc").posAt 11 = ⟨2, 0⟩ ∧
    (TextDoc.ref b!"a\r\nb😀é\rc").posAt 8 = ⟨1, 3⟩ ∧
    (TextDoc.ref b!"a\r\nb😀é\rc").offsetAt ⟨1, 3⟩ = 8 ∧
    isBoundary b!"a\r\nb😀é\rc" 8 = true := by decide

end Html.Props
