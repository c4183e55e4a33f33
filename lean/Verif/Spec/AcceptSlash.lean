import Verif.Spec.Accept

/-! # The element that an end tag closes -/

namespace Html.Spec
open Html

/-- The element with the end tag `</t>` at `o`, so that of its children those in front of `o` are left. -/
def closedHere (n : Node) (o : Nat) (t : Str) : Node :=
  { n with children := n.children.filter (fun k => k.start < o), closed := true, endTagStart := some o,
           stop := o + (t.length + 3) }

end Html.Spec
