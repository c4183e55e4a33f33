import Verif.Spec.Tokens
import Verif.Model.Parser

/-!
# Texts that differ in the case of ASCII letters only
-/

namespace Html.Spec
open Html

/-- The texts are equal up to the case of ASCII letters. -/
def SameLetters (a b : Str) : Prop := asciiLower a = asciiLower b

/-- The tags `<script`, `</script` and `</style` are written in lower case at the same places. -/
def SameRawTags (a b : Str) : Prop :=
  ∀ o, ∀ lit ∈ [b!"<script", b!"</script", b!"</style"],
    lit.isPrefixOf (a.drop o) = lit.isPrefixOf (b.drop o)

/-- `str::to_lowercase` does not depend on the case of ASCII letters. -/
def LowersLetters (u : Uni) : Prop := ∀ a b, SameLetters a b → u.lowerNA a = u.lowerNA b

mutual
/-- An element with its name in lower case and without attributes: its place, its parts and its children. -/
def skeleton : Node → Node
  | ⟨tag, start, stop, children, closed, startTagEnd, endTagStart, _⟩ =>
    ⟨tag.map asciiLower, start, stop, skeletons children, closed, startTagEnd, endTagStart, []⟩
/-- The same for a list of nodes. -/
def skeletons : List Node → List Node
  | [] => []
  | n :: ns => skeleton n :: skeletons ns
end

end Html.Spec
