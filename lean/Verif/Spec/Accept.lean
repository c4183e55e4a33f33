import Verif.Spec.Completion

/-! # Specification vocabulary for accepted completions -/

namespace Html.Spec
open Html

/-- The name as it is compared: in lower case unless case matters. -/
def comparedName (u : Uni) (caseSensitive : Bool) (t : Str) : Str := if caseSensitive then t else toLower u t

/-- A `script` or `style` element whose name is not written in lower case. -/
def OddRaw (u : Uni) (caseSensitive : Bool) (t : Str) : Prop :=
  (comparedName u caseSensitive t = b!"script" ∨ comparedName u caseSensitive t = b!"style") ∧
    comparedName u caseSensitive t ≠ t

/-- The element with the end tag `</t>` directly behind its start tag, which ends at `o`. -/
def closedAt (n : Node) (o : Nat) (t : Str) : Node :=
  { n with children := [], closed := true, endTagStart := some o, stop := o + (t.length + 3) }

end Html.Spec
