import Verif.Spec.Links
import Verif.Spec.Tree

/-!
# Specification: document links and the tree
-/

namespace Html.Spec
open Html

/-- The attribute `k` is written at `o` with the value `v`, and `v` begins at `i`. -/
def WrittenAt (src k v : Str) (o i : Nat) : Prop :=
  ∃ w, Spaces w ∧ At src o (k ++ w ++ b!"=" ++ v) ∧ i = o + (k ++ w ++ b!"=").length

/-- The range of the value `v` at `i` without its quotes. -/
def bareRange (d : TextDoc) (i : Nat) (v : Str) : Range :=
  if quoted v then ⟨d.posAt (i + 1), d.posAt (i + v.length - 1)⟩ else ⟨d.posAt i, d.posAt (i + v.length)⟩

deriving instance DecidableEq for TagInfo

end Html.Spec
