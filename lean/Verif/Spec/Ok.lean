import Verif.Model.Bytes
import Lean.Elab.Tactic.Basic

/-! # Checking computed results in examples and witnesses -/

namespace Html.Spec
open Html

/-- The computation returns (does not panic) and its result satisfies `p`. -/
def returns {α : Type} (r : R α) (p : α → Bool) : Bool :=
  match r with
  | .ok a => p a
  | .error _ => false

theorem returns_iff {α : Type} {r : R α} {p : α → Bool} :
    returns r p = true ↔ ∃ a, r = .ok a ∧ p a = true := by
  cases r <;> simp [returns]

/-- Closes `a = b` by `rfl`, computed by the kernel (and only by the kernel). -/
elab "krfl" : tactic => do
  let g ← Lean.Elab.Tactic.getMainGoal
  let t ← Lean.instantiateMVars (← g.getType)
  match t.eq? with
  | some (_, a, _) => g.assign (← Lean.Meta.mkEqRefl a)
  | none => throwError "krfl: not an equation"

end Html.Spec
