import Verif.Spec.Query
import Verif.Spec.Tree

/-! # Elements without an end tag around a cursor (C98) -/

namespace Html.Spec

/-- The innermost element around the offset has no end tag, and does not end with its start tag. -/
def InUnclosed (roots : List Node) (o : Nat) : Prop :=
  ∃ n ste, InForest roots n ∧ Covers n o ∧ (∀ c ∈ n.children, ¬ Covers c o) ∧
    n.startTagEnd = some ste ∧ ste ≠ n.stop ∧ n.endTagStart = none

end Html.Spec
