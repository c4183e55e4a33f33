import Verif.Model.Links
import Verif.Spec.Tokens

/-!
# Specification: kinds of references
-/

namespace Html.Spec

/-- `\w[\w+.-]*` in ASCII: what can stand in front of the first colon of a reference with a scheme. -/
def SchemeName (s : Str) : Prop :=
  ∃ a k, s = a :: k ∧ (alnum a ∨ a = 95) ∧ ∀ b ∈ k, alnum b ∨ b = 95 ∨ b = 43 ∨ b = 46 ∨ b = 45

/-- `t` is the address that is opened for `url`: `url` itself, or what is in front of the query and the
fragment of a file. -/
def Plain (url t : Str) : Prop :=
  (t = url ∧ ¬ (b!"file:") <+: url) ∨
    ∃ p q f, url = b!"file://" ++ p ++ q ++ f ∧ t = b!"file://" ++ p ∧ (∀ b ∈ p, b ≠ 63 ∧ b ≠ 35) ∧
      (q = [] ∨ ∃ x, q = b!"?" ++ x ∧ 63 ∉ x ∧ 35 ∉ x) ∧ (f = [] ∨ ∃ x, f = b!"#" ++ x ∧ 63 ∉ x)

end Html.Spec
