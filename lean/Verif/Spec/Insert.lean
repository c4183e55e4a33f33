import Verif.Spec.Locality
import Verif.Spec.Print

/-!
# Inserting nodes into a parsed document

What a document looks like behind an insertion of `k` bytes at offset `p`, where the
inserted text has the nodes `ns`.
-/

namespace Html.Spec
open Html

/-- Offset `p` lies in the content of the element, or the element was left open and ends there. -/
def OpenAt (p : Nat) (n : Node) : Prop := n.start < p ∧ (p < n.stop ∨ p = n.stop ∧ LeftOpen n)

instance (p : Nat) (n : Node) : Decidable (OpenAt p n) := by unfold OpenAt LeftOpen; infer_instance

mutual
/-- An element with offset `p` in its content: what is in front of `p` stays, what is behind it moves. -/
def insertNode (p k : Nat) (ns : List Node) : Node → Node
  | ⟨tag, start, stop, children, closed, startTagEnd, endTagStart, attributes⟩ =>
    ⟨tag, start, stop + k, insertAll p k ns children, closed, startTagEnd, endTagStart.map (· + k), attributes⟩
/-- A list of siblings: the new nodes are put into the one that is open at `p`; if there is none, between those
in front of `p` and those behind it. -/
def insertAll (p k : Nat) (ns : List Node) : List Node → List Node
  | [] => ns
  | n :: l =>
    if OpenAt p n then insertNode p k ns n :: l.map (Node.shift k)
    else if n.start < p then n :: insertAll p k ns l
    else ns ++ (n :: l).map (Node.shift k)
end

mutual
/-- The node without its offsets: what remains is its name, whether it is closed, which of its tags are complete, its
attributes with their values, and its children. -/
def outline : Node → Node
  | ⟨tag, _, _, children, closed, startTagEnd, endTagStart, attributes⟩ =>
    ⟨tag, 0, 0, outlines children, closed, startTagEnd.map (fun _ => 0), endTagStart.map (fun _ => 0),
      attributes.map fun a => (a.1, ⟨a.2.value, 0⟩)⟩
/-- The nodes without their offsets. -/
def outlines : List Node → List Node
  | [] => []
  | n :: l => outline n :: outlines l
end

/-- Text, comments and doctypes: what has no nodes. -/
def Item.isInert : Item → Prop
  | .text _ | .comment _ | .doctype _ _ => True
  | _ => False

/-- The text ends in content, that is outside of tags, comments, doctypes and raw text: behind the `>` of a tag, a
comment or a doctype (or the start of the text) there is no `<`. -/
def EndsInContent (u : Uni) (cs : Bool) (pre : Str) : Prop :=
  ∃ a t, pre = a ++ t ∧ 60 ∉ t ∧
    (a = [] ∨ ∃ i tk, EndsBracket (parserCfg u cs a) 0 .WithinContent i tk ∧ tk.state = .WithinContent)

end Html.Spec
