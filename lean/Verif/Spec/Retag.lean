import Verif.Spec.Insert

/-!
# Other attributes in a start tag

What a document looks like if the start tag at offset `p`, which was `l` bytes long, is replaced by one of `l'`
bytes with the same name and the attributes `attrs`.
-/

namespace Html.Spec
open Html

/-- What is behind the start of the tag moves. -/
def moved (p l l' o : Nat) : Nat := if o ≤ p then o else o + l' - l

mutual
/-- All offsets behind `p` move, and the element that starts at `p` has the new attributes. -/
def retag (p l l' : Nat) (attrs : List (Str × Attr)) : Node → Node
  | ⟨tag, start, stop, children, closed, startTagEnd, endTagStart, attributes⟩ =>
    ⟨tag, moved p l l' start, moved p l l' stop, retagAll p l l' attrs children, closed,
      startTagEnd.map (moved p l l'), endTagStart.map (moved p l l'),
      if start = p then attrs else attributes.map fun a => (a.1, ⟨a.2.value, moved p l l' a.2.offset⟩)⟩
/-- The same for a list of nodes. -/
def retagAll (p l l' : Nat) (attrs : List (Str × Attr)) : List Node → List Node
  | [] => []
  | n :: ns => retag p l l' attrs n :: retagAll p l l' attrs ns
end

end Html.Spec
