import Verif.Spec.Insert
import Verif.Spec.Print

/-! # The name of a start tag -/

namespace Html.Spec

/-- A name does not go on with this text: it is empty, or begins with an ASCII character that is not part of names. -/
def NameEnds (y : Str) : Prop := ∀ b, y.head? = some b → b < 128 ∧ ¬ NameByte b

/-- Behind `<` begins a start tag with the name `w` (or without a name yet, then no end tag, comment or doctype begins
there), and then `y`. -/
def BeginsTag (w y : Str) : Prop :=
  NameEnds y ∧ (TagName w ∨ w = [] ∧ y.head? ≠ some 47 ∧ y.head? ≠ some 33)

end Html.Spec
