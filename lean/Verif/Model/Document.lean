import Verif.Model.Scanner

/-!
# The document tree (`/repo/src/parser/html_document.rs`)
-/

namespace Html

/-- `NodeAttribute`, html_document.rs 32-44. -/
structure Attr where
  value : Option Str
  offset : Nat
deriving DecidableEq, Repr

/-- `Node`, html_document.rs 5-20.  The `HashMap` of attributes is an association
list without duplicate keys; `stop` is the field `end`. -/
structure Node where
  tag : Option Str
  start : Nat
  stop : Nat
  children : List Node
  closed : Bool
  startTagEnd : Option Nat
  endTagStart : Option Nat
  attributes : List (Str × Attr)
deriving Repr

/-- `Node::new`, html_document.rs 47-58. -/
def Node.new (start stop : Nat) (children : List Node) : Node where
  tag := none
  start := start
  stop := stop
  children := children
  closed := false
  startTagEnd := none
  endTagStart := none
  attributes := []

/-- `HashMap::insert`. -/
def attrInsert (m : List (Str × Attr)) (k : Str) (v : Attr) : List (Str × Attr) :=
  match m with
  | [] => [(k, v)]
  | (k', v') :: t => if k' = k then (k, v) :: t else (k', v') :: attrInsert t k v

/-- `HashMap::get`. -/
def attrGet (m : List (Str × Attr)) (k : Str) : Option Attr :=
  match m with
  | [] => none
  | (k', v') :: t => if k' = k then some v' else attrGet t k

/-- `attributes.get_mut(attr).unwrap().value = Some(v)`: panics if absent. -/
def attrSetValue (m : List (Str × Attr)) (k : Str) (v : Str) : R (List (Str × Attr)) :=
  match m with
  | [] => .error .unwrap
  | (k', v') :: t =>
    if k' = k then .ok ((k', { v' with value := some v }) :: t)
    else do
      let t' ← attrSetValue t k v
      .ok ((k', v') :: t')

/-- `Node::is_self_closing`, html_document.rs 74-76. -/
def Node.isSelfClosing (n : Node) : Bool := n.endTagStart.isNone

/-- `Node::is_same_tag`, html_document.rs 78-91. -/
def Node.isSameTag (u : Uni) (n : Node) (target : Option Str) (caseSensitive : Bool) : Bool :=
  match n.tag with
  | none => target.isNone
  | some tag =>
    let tag := if caseSensitive then tag else toLower u tag
    match target with
    | some t => tag == t
    | none => false

/-- `Node::first_child`, html_document.rs 93-95. -/
def Node.firstChild (n : Node) : Option Node := n.children.head?

/-- `Node::last_child`, html_document.rs 97-99. -/
def Node.lastChild (n : Node) : Option Node := n.children.getLast?

/-- The search loop of `find_node_before`/`find_node_at` (html_document.rs 106-112,
138-144, 243-249, 276-282): index of the first child satisfying the
condition, or the number of children. -/
def firstIdx (p : Node → Bool) : List Node → Nat
  | [] => 0
  | ch :: t => if p ch then 0 else 1 + firstIdx p t

mutual
/-- `Node::find_node_at`, html_document.rs 133-154.  The second component is what
is pushed onto `parent_list`. -/
def Node.findAt (offset : Nat) : Node → Node × List Node
  | ⟨tag, start, stop, children, closed, ste, ets, attrs⟩ =>
    let node : Node := ⟨tag, start, stop, children, closed, ste, ets, attrs⟩
    let idx := firstIdx (fun ch => decide (offset < ch.start)) children
    if idx > 0 then
      match Node.findAtNth offset (idx - 1) children with
      | some (r, ps) => (r, node :: ps)
      | none => (node, [])
    else (node, [])
/-- Body of `if idx > 0` on `children[idx - 1]` (html_document.rs 146-152, 284-289). -/
def Node.findAtNth (offset : Nat) : Nat → List Node → Option (Node × List Node)
  | _, [] => none
  | 0, ch :: _ =>
    if offset ≥ ch.start ∧ offset < ch.stop then some (Node.findAt offset ch) else none
  | k + 1, _ :: t => Node.findAtNth offset k t
end

mutual
/-- `Node::find_node_before`, html_document.rs 101-131. -/
def Node.findBefore (offset : Nat) : Node → Node × List Node
  | ⟨tag, start, stop, children, closed, ste, ets, attrs⟩ =>
    let node : Node := ⟨tag, start, stop, children, closed, ste, ets, attrs⟩
    let idx := firstIdx (fun ch => decide (offset ≤ ch.start)) children
    if idx > 0 then
      match Node.findBeforeNth offset (idx - 1) children with
      | some (r, ps) => (r, node :: ps)
      | none => (node, [])
    else (node, [])
/-- Body of `if idx > 0` on `children[idx - 1]` (html_document.rs 113-129, 250-263). -/
def Node.findBeforeNth (offset : Nat) : Nat → List Node → Option (Node × List Node)
  | _, [] => none
  | 0, ch :: _ =>
    if offset > ch.start then
      if offset < ch.stop then some (Node.findBefore offset ch)
      else if ch.lastChild.any (fun l => l.stop == ch.stop) then
        some (Node.findBefore offset ch)
      else some (ch, [])
    else none
  | k + 1, _ :: t => Node.findBeforeNth offset k t
end

/-- `HTMLDocument::find_node_at`, html_document.rs 271-291. -/
def findNodeAt (roots : List Node) (offset : Nat) : Option (Node × List Node) :=
  let idx := firstIdx (fun ch => decide (offset < ch.start)) roots
  if idx > 0 then Node.findAtNth offset (idx - 1) roots else none

/-- `HTMLDocument::find_node_before`, html_document.rs 238-265. -/
def findNodeBefore (roots : List Node) (offset : Nat) : Option (Node × List Node) :=
  let idx := firstIdx (fun ch => decide (offset ≤ ch.start)) roots
  if idx > 0 then Node.findBeforeNth offset (idx - 1) roots else none

/-- `HTMLDocument::find_root_at`, html_document.rs 293-300. -/
def findRootAt (roots : List Node) (offset : Nat) : Option Node :=
  roots.find? (fun r => offset ≤ r.stop)

/-- `Node::find_token_type_in_node`, html_document.rs 162-202. -/
def Node.findTokenType (node : Node) (offset : Nat) : R TT := do
  if node.start > offset ∨ node.stop ≤ offset then return .Unknown
  let tag ← unwrap node.tag
  if node.start = offset then return .StartTagOpen
  if offset < node.start + 1 + tag.length then return .StartTag
  let startTagEnd ← unwrap node.startTagEnd
  if offset ≥ startTagEnd then
    match node.endTagStart with
    | some endTagStart =>
      if offset < endTagStart then return .Content
      else if offset = endTagStart ∨ offset = endTagStart + 1 then return .EndTagOpen
      else
        let e ← subU node.stop 1
        if offset < e then return .EndTag else return .EndTagClose
    | none =>
      if startTagEnd = node.stop then
        let e ← subU node.stop 2
        if offset ≥ e then return .StartTagSelfClose else return .Unknown
      else return .Unknown
  else
    if startTagEnd = node.stop then
      let e ← subU startTagEnd 2
      if offset ≥ e then return .StartTagSelfClose else return .Unknown
    else
      let e ← subU startTagEnd 1
      if offset ≥ e then return .StartTagClose else return .Unknown

end Html
