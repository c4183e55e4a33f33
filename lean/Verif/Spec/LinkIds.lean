import Verif.Spec.LinkTree

/-!
# The ids of the elements
-/

namespace Html.Spec
open Html

/-- The element has the id, and its value (with its quotes, if any) is written at `place`. -/
def HasId (e : LinkEnv) (src : Str) (n : Node) (id : Str) (place : Nat) : Prop :=
  ∃ k v o, (k, ⟨some v, o⟩) ∈ n.attributes ∧ e.name k = b!"id" ∧ v ≠ [] ∧ bare v = id ∧ WrittenAt src k v o place

/-- In the start tag of the element the id is written at `place`: it has this id, or the attribute is written again
behind it. -/
def WritesId (e : LinkEnv) (src : Str) (n : Node) (id : Str) (place : Nat) : Prop :=
  HasId e src n id place ∨
  ∃ k v o a, (k, a) ∈ n.attributes ∧ e.name k = b!"id" ∧ bare v = id ∧ WrittenAt src k v o place ∧ n.start < o ∧
    place + v.length ≤ a.offset

end Html.Spec
