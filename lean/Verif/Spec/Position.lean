import Verif.Model.TextDocument

/-!
# Specification vocabulary for positions
-/

namespace Html.Spec
open Html

/-- Document order of positions. -/
def PosLe (a b : Pos) : Prop := a.line < b.line ∨ (a.line = b.line ∧ a.character ≤ b.character)

/-- Strict document order of positions. -/
def PosLt (a b : Pos) : Prop := a.line < b.line ∨ (a.line = b.line ∧ a.character < b.character)

instance (a b : Pos) : Decidable (PosLe a b) := by unfold PosLe; infer_instance

/-- What the services rely on: positions and offsets of character boundaries correspond to
each other, and keep their order; offsets behind the end mean the end. -/
structure Lawful (d : TextDoc) : Prop where
  roundTrip : ∀ o, o ≤ d.text.length → isBoundary d.text o = true → d.offsetAt (d.posAt o) = o
  mono : ∀ o o', o ≤ o' → PosLe (d.posAt o) (d.posAt o')
  inRange : ∀ p, d.offsetAt p ≤ d.text.length ∧ isBoundary d.text (d.offsetAt p) = true
  clamp : ∀ o, d.text.length ≤ o → d.posAt o = d.posAt d.text.length

/-- There is a line break that ends with the byte at offset `i`: `\n`, or `\r` without a
`\n` behind it. -/
def BreakAt (src : Str) (i : Nat) : Prop :=
  src[i]? = some 10 ∨ (src[i]? = some 13 ∧ src[i + 1]? ≠ some 10)

instance (src : Str) (i : Nat) : Decidable (BreakAt src i) := by unfold BreakAt; infer_instance

/-- Number of line breaks that end before offset `o`. -/
def breaksBefore (src : Str) (o : Nat) : Nat := ((List.range o).filter (fun i => BreakAt src i)).length

/-- The start of the line that contains offset `o`. -/
def LineStart (src : Str) (o s : Nat) : Prop :=
  s ≤ o ∧ (s = 0 ∨ BreakAt src (s - 1)) ∧ ∀ i, s ≤ i → i < o → ¬ BreakAt src i

/-- Number of UTF-16 code units of a text: two for a character of four bytes, one for any
other. -/
def utf16Len (s : Str) : Nat :=
  (s.filter (fun b => b < 128 ∨ 192 ≤ b)).length + (s.filter (fun b => 240 ≤ b)).length

end Html.Spec
