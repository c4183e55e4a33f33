import Verif.Spec.Retag

/-!
# An element with another name

What a document looks like if the element that starts at offset `p` gets another name, both in its start tag and in its
end tag.
-/

namespace Html.Spec
open Html

mutual
/-- The element that starts at `p` has the name `new`; the offsets are those that `move` says. -/
def renamed (p : Nat) (new : Str) (move : Nat → Nat) : Node → Node
  | ⟨tag, start, stop, children, closed, startTagEnd, endTagStart, attributes⟩ =>
    ⟨if start = p then some new else tag, move start, move stop, renamedAll p new move children, closed,
      startTagEnd.map move, endTagStart.map move, attributes.map fun a => (a.1, ⟨a.2.value, move a.2.offset⟩)⟩
/-- The same for a list of nodes. -/
def renamedAll (p : Nat) (new : Str) (move : Nat → Nat) : List Node → List Node
  | [] => []
  | n :: ns => renamed p new move n :: renamedAll p new move ns
end

/-- Offsets behind the `<` at `p` move by the difference of the lengths of the names, those behind the `</` at `e` by the
difference once more. -/
def movedBoth (p e l l' k o : Nat) : Nat := if o ≤ p then o else if o ≤ e then o + k - l else o + k + k - l - l'

/-- No start tag and no end tag in the text, which begins in content, has the name. -/
def NameFree (u : Uni) (cs : Bool) (text name : Str) : Prop :=
  ∃ ts, tokens (parserCfg u cs text) (.new 0 .WithinContent) = .ok ts ∧
    ∀ t ∈ ts, t.type = .StartTag ∨ t.type = .EndTag → ¬ SameName u cs (some (bytesIn text t.offset t.stop)) (some name)

end Html.Spec
