import Verif.Spec.Tokens
import Verif.Model.Document

/-!
# Specification vocabulary for parsed documents

Definitions used in the statements of the parser properties.  They talk about the
source bytes and the fields of nodes only.
-/

namespace Html.Spec
open Html

/-- `n` is a node of the forest: one of the listed nodes or a descendant of one. -/
inductive InForest : List Node → Node → Prop
  | root {l : List Node} {n : Node} (h : n ∈ l) : InForest l n
  | child {l : List Node} {m n : Node} (hm : InForest l m) (h : n ∈ m.children) : InForest l n

/-- The nodes are non-empty ranges inside `[lo, hi]`, in order, without overlap. -/
def Siblings (lo : Nat) (ns : List Node) (hi : Nat) : Prop :=
  match ns with
  | [] => lo ≤ hi
  | n :: rest => lo ≤ n.start ∧ n.start < n.stop ∧ Siblings n.stop rest hi

/-- `x` is found in `src` at offset `i`. -/
def At (src : Str) (i : Nat) (x : Str) : Prop := ∃ r, src.drop i = x ++ r

/-- White space only. -/
def Spaces (w : Str) : Prop := ∀ b ∈ w, Space b

/-- ASCII bytes that can start an element name. -/
def NameStartByte (b : Nat) : Prop := alnum b ∨ b = 95 ∨ b = 58

/-- ASCII bytes that can continue an element name. -/
def NameByte (b : Nat) : Prop := alnum b ∨ b = 95 ∨ b = 58 ∨ b = 45 ∨ b = 46

/-- The name found at offset `i` after skipping white space is `name` (all of it, not a
part of a longer one), and it ends at or before `hi`; `none` means that no name is found
there. -/
def NameAfter (src : Str) (i : Nat) (name : Option Str) (hi : Nat) : Prop :=
  match name with
  | some t => ∃ w, Spaces w ∧ At src i (w ++ t) ∧ ElementName t ∧
      (∀ b, src[i + w.length + t.length]? = some b → ¬ NameByte b) ∧
      i + w.length + t.length ≤ hi
  | none => ∃ w, Spaces w ∧ At src i w ∧
      (∀ b, src[i + w.length]? = some b → ¬ NameStartByte b) ∧ i + w.length ≤ hi

/-- The attribute `name` with the given value and offset is written in the source between
`lo` and `hi`: the name, and if there is a value then white space, `=` and
the value text (nothing after the `=` if the value is empty). -/
def AttrAt (src : Str) (lo hi : Nat) (name : Str) (a : Attr) : Prop :=
  AttributeName name ∧ lo < a.offset ∧
  match a.value with
  | none => At src a.offset name ∧ a.offset + name.length ≤ hi
  | some v => ∃ w, Spaces w ∧ At src a.offset (name ++ w ++ b!"=" ++ v) ∧
      a.offset + (name ++ w ++ b!"=" ++ v).length ≤ hi ∧
      (v = [] ∨ UnquotedValue v ∨
        QuotedValue (a.offset + (name ++ w ++ b!"=" ++ v).length = src.length) v)

/-- The value of one of the attributes ends at `pos` with a slash. -/
def SlashValue (src : Str) (attrs : List (Str × Attr)) (pos : Nat) : Prop :=
  ∃ x ∈ attrs, ∃ v w, x.2.value = some v ∧ v.getLast? = some 47 ∧ Spaces w ∧
    At src x.2.offset (x.1 ++ w ++ b!"=" ++ v) ∧
    x.2.offset + (x.1 ++ w ++ b!"=" ++ v).length = pos

/-- Equality of tag names as the parser option says. -/
def SameName (u : Uni) (caseSensitive : Bool) (a b : Option Str) : Prop :=
  if caseSensitive then a = b else a.map (toLower u) = b.map (toLower u)

/-- Where the content of an element ends: at its end tag, or at its end. -/
def contentEnd (n : Node) : Nat := n.endTagStart.getD n.stop

/-- The element was still open when something enclosing it ended: its start tag is
complete, but it was never closed. -/
def LeftOpen (n : Node) : Prop := n.closed = false ∧ n.startTagEnd ≠ none

/-- `m` is reached from `n` by repeatedly going to a child that was left open. -/
inductive OpenInside : Node → Node → Prop
  | child {n m : Node} (h : m ∈ n.children) (ho : LeftOpen m) : OpenInside n m
  | step {n m k : Node} (hm : OpenInside n m) (h : k ∈ m.children) (ho : LeftOpen k) :
      OpenInside n k

mutual
/-- Start offsets of a node and its descendants in pre-order. -/
def preNode : Node → List Nat
  | ⟨_, start, _, children, _, _, _, _⟩ => start :: preorder children
/-- Start offsets of all nodes of a forest in pre-order. -/
def preorder : List Node → List Nat
  | [] => []
  | n :: ns => preNode n ++ preorder ns
end

/-- What the start tag of an element says. -/
structure TagInfo where
  start : Nat
  tag : Option Str
  attributes : List (Str × Attr)

mutual
/-- The start tags of a node and its descendants in pre-order. -/
def infoNode : Node → List TagInfo
  | ⟨tag, start, _, children, _, _, _, attributes⟩ => ⟨start, tag, attributes⟩ :: infos children
/-- The start tags of a forest in pre-order. -/
def infos : List Node → List TagInfo
  | [] => []
  | n :: ns => infoNode n ++ infos ns
end

/-- Change the last element of a list. -/
def modifyLast {α : Type} (f : α → α) : List α → List α
  | [] => []
  | [a] => [f a]
  | a :: l => a :: modifyLast f l

/-- Give the attribute `name` the value `v` (if there is such an attribute). -/
def setValue (name v : Str) (t : TagInfo) : TagInfo :=
  match attrGet t.attributes name with
  | some a => { t with attributes := attrInsert t.attributes name { a with value := some v } }
  | none => t

/-- Reading of a token stream as a list of start tags: every `<` starts a new one, names
and attributes belong to the one started last; the second component is the last attribute
name seen. -/
def readTag (src : Str) (r : List TagInfo × Option Str) (t : Tok) : List TagInfo × Option Str :=
  match t.type with
  | .StartTagOpen => (r.1 ++ [⟨t.offset, none, []⟩], r.2)
  | .StartTag => (modifyLast (fun i => { i with tag := some (text src t) }) r.1, r.2)
  | .AttributeName =>
    (modifyLast (fun i => { i with
      attributes := attrInsert i.attributes (text src t) ⟨none, t.offset⟩ }) r.1,
     some (text src t))
  | .DelimiterAssign => (modifyLast (setValue (r.2.getD []) []) r.1, r.2)
  | .AttributeValue => (modifyLast (setValue (r.2.getD []) (text src t)) r.1, r.2)
  | _ => r

/-- Reading of a token stream as a list of end tags (offset and name): the end tags that are
complete, the start of the last one and its name. -/
def readEndTag (src : Str) (r : List (Nat × Option Str) × Option Nat × Option Str) (t : Tok) :
    List (Nat × Option Str) × Option Nat × Option Str :=
  match t.type with
  | .EndTagOpen => (r.1, some t.offset, none)
  | .EndTag => (r.1, r.2.1, some (text src t))
  | .EndTagClose =>
    match r.2.1 with
    | some e => (r.1 ++ [(e, r.2.2)], r.2.1, r.2.2)
    | none => r
  | _ => r

/-- The end tags of a token stream. -/
def endTags (src : Str) (ts : List Tok) : List (Nat × Option Str) :=
  (ts.foldl (readEndTag src) ([], none, none)).1

end Html.Spec
