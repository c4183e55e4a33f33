import Verif.Spec.Insert

/-!
# The part of a tree in front of an offset

What a tree says about the text in front of an offset `p` that lies in content: the elements that are
complete there, and those that are open there, as if the text ended at `p`.
-/

namespace Html.Spec
open Html

mutual
/-- An element that is open at `p`, as if the text ended there. -/
def cutNode (p : Nat) : Node → Node
  | ⟨tag, start, _, children, _, startTagEnd, _, attributes⟩ =>
    ⟨tag, start, p, cutAll p children, false, startTagEnd, none, attributes⟩
/-- The siblings that begin in front of `p`, as if the text ended there. -/
def cutAll (p : Nat) : List Node → List Node
  | [] => []
  | n :: l =>
    if OpenAt p n then [cutNode p n]
    else if n.start < p then n :: cutAll p l
    else []
end

end Html.Spec
