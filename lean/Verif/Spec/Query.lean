import Verif.Spec.Tree

/-!
# Specification vocabulary for document queries
-/

namespace Html.Spec
open Html

/-- `ps` are the ancestors of `n` in the forest, outermost first: the first one is a root,
each next one a child of the one before, and `n` a child of the last (a root, if there are
none). -/
def Chain : List Node → List Node → Node → Prop
  | roots, [], n => n ∈ roots
  | roots, p :: ps, n => p ∈ roots ∧ Chain p.children ps n

/-- The offset lies in the half-open range of the node. -/
def Covers (n : Node) (offset : Nat) : Prop := n.start ≤ offset ∧ offset < n.stop

instance (n : Node) (o : Nat) : Decidable (Covers n o) := by unfold Covers; infer_instance

/-- The last child reaches to the end of the node, that is, the node has no end tag of its own
behind its children. -/
def EndsWithLastChild (n : Node) : Prop := ∃ c, n.children.getLast? = some c ∧ c.stop = n.stop

/-- The offset is on the `len` bytes at `i`, or at one of their ends. -/
def OnName (i len o : Nat) : Prop := i ≤ o ∧ o ≤ i + len

/-- Length of the tag name, 0 if there is none. -/
def nameLen (n : Node) : Nat := (n.tag.getD []).length

/-- There is no white space at offset `i`. -/
def NoBlank (src : Str) (i : Nat) : Prop := ∀ b, src[i]? = some b → ¬ Space b

/-- At `a` there is the name `t`, all of it and not part of a longer one, with nothing but white
space between `i` and `a`. -/
def NameAt (src : Str) (i : Nat) (t : Str) (a : Nat) : Prop :=
  ElementName t ∧ At src a t ∧ (∀ b, src[a + t.length]? = some b → ¬ NameByte b) ∧
  ∃ w, Spaces w ∧ At src i w ∧ a = i + w.length

/-- Names that are taken for the same differ in the case of ASCII letters at most: case matters, or the names of the elements
are ASCII, in the start tags and in the end tags. -/
def PlainNames (caseSensitive : Bool) (src : Str) (roots : List Node) : Prop :=
  caseSensitive = true ∨ ∀ n t, InForest roots n → n.tag = some t → isAscii t ∧
    ∀ e t', n.endTagStart = some e → NameAfter src (e + 2) (some t') n.stop → isAscii t'

end Html.Spec
