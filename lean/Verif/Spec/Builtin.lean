import Verif.Model.BuiltinTags
import Verif.Model.Entities
import Verif.Spec.Tokens

/-! # Specification vocabulary for the built-in data -/

namespace Html.Spec
open Html

/-- The elements of HTML that have no content, in alphabetical order. -/
def htmlVoid : List Str :=
  [b!"area", b!"base", b!"br", b!"col", b!"embed", b!"hr", b!"img", b!"input", b!"link", b!"meta", b!"param", b!"source",
   b!"track", b!"wbr"]

/-- The providers of a data manager with the built-in data only. -/
def builtinProviders (u : Uni) (doc : Nat → Str) (cs : Bool) : List Provider :=
  (DataManager.new u (builtinData doc) true none cs).providers

/-- `x` stands for the name: it is the name, or without case sensitivity the name in any case. -/
def Written (u : Uni) (cs : Bool) (x name : Str) : Prop := (if cs then x else toLower u x) = name

/-- Lower-case letters, digits and `-`. -/
def LowerName (s : Str) : Prop := s ≠ [] ∧ ∀ b ∈ s, (97 ≤ b ∧ b ≤ 122) ∨ (48 ≤ b ∧ b ≤ 57) ∨ b = 45

instance (s : Str) : Decidable (LowerName s) := by unfold LowerName; infer_instance

/-- The number with the hexadecimal digits `s`. -/
def hexValue (s : Str) : Nat := s.foldl (fun n b => 16 * n + (if b < 65 then b - 48 else b - 55)) 0

/-- Hexadecimal digits, upper case. -/
def HexDigits (s : Str) : Prop := ∀ b ∈ s, (48 ≤ b ∧ b ≤ 57) ∨ (65 ≤ b ∧ b ≤ 70)

end Html.Spec
