import Verif.Model.Document

/-!
# The parser (`/repo/src/parser/html_parse.rs`)

The Rust code keeps a raw pointer `cur` into the tree under construction and
a stack `parent_list` of raw pointers to its ancestors.  Only `cur` and, after
popping, its ancestors are ever mutated, so the pair is modelled as a zipper:
`cur` is the current node, `parents` its ancestors (nearest first), each without the
child that is currently open; popping appends the child to its parent.
-/

namespace Html

/-- Local variables of `parse_html_document`, html_parse.rs 44-53. -/
structure PState where
  cur : Node
  /-- `parent_list`, nearest ancestor first -/
  parents : List Node
  endTagStart : Option Nat
  endTagName : Option Str
  pending : Option Str
deriving Repr

/-- `Vec::push` of a finished child. -/
def Node.addChild (p ch : Node) : Node := { p with children := p.children ++ [ch] }

/-- `cur = parent_list.pop().unwrap()`. -/
def PState.pop (p : PState) : R PState :=
  match p.parents with
  | [] => .error .unwrap
  | q :: qs => .ok { p with cur := q.addChild p.cur, parents := qs }

/-- Search loop of the `EndTagClose` arm, html_parse.rs 106-115: the value of
`node_parent_list_length` after the loop. -/
def matchDepth (u : Uni) (caseSensitive : Bool) (name : Option Str) : Node → List Node → Nat
  | _, [] => 0
  | node, q :: qs =>
    if node.isSameTag u name caseSensitive then (q :: qs).length
    else matchDepth u caseSensitive name q qs

/-- Closing of the unclosed inner nodes, html_parse.rs 117-121: `k` nodes are
popped, each ending at the end tag. -/
def popUnclosed : Nat → PState → R PState
  | 0, p => .ok p
  | k + 1, p => do
    let e ← unwrap p.endTagStart
    let p ← { p with cur := { p.cur with stop := e, closed := false } }.pop
    popUnclosed k p

/-- One iteration of the `match token` of the main loop, html_parse.rs 56-151; `s` is the
scanner after the scan that produced the token. -/
def parseStep (c : Cfg) (void : List Str) (p : PState) (s : Sc) : R PState :=
  match s.tokenType with
  | .StartTagOpen =>
    .ok { p with cur := Node.new s.tokenOffset c.src.length [], parents := p.cur :: p.parents }
  | .StartTag => do
    let t ← tokenText c s
    .ok { p with cur := { p.cur with tag := some t } }
  | .StartTagClose =>
    if p.parents.isEmpty then .ok p
    else
      let cur := { p.cur with stop := s.tokenEnd }
      if s.tokenLength > 0 then
        let cur := { cur with startTagEnd := some s.tokenEnd }
        if cur.tag.any (fun t => void.contains t) then
          { p with cur := { cur with closed := true } }.pop
        else .ok { p with cur := cur }
      else { p with cur := cur }.pop
  | .StartTagSelfClose =>
    if p.parents.isEmpty then .ok p
    else
      { p with cur := { p.cur with
          closed := true, stop := s.tokenEnd, startTagEnd := some s.tokenEnd } }.pop
  | .EndTagOpen => .ok { p with endTagStart := some s.tokenOffset, endTagName := none }
  | .EndTag => do
    let t ← tokenText c s
    .ok { p with endTagName := some (if c.caseSensitive then t else toLower c.uni t) }
  | .EndTagClose =>
    let d := matchDepth c.uni c.caseSensitive p.endTagName p.cur p.parents
    if d > 0 then do
      let p ← popUnclosed (p.parents.length - d) p
      { p with cur := { p.cur with
          closed := true, endTagStart := p.endTagStart, stop := s.tokenEnd } }.pop
    else .ok p
  | .AttributeName => do
    let t ← tokenText c s
    .ok { p with
      pending := some t
      cur := { p.cur with attributes := attrInsert p.cur.attributes t ⟨none, s.tokenOffset⟩ } }
  | .DelimiterAssign =>
    match p.pending with
    | some a => do
      let m ← attrSetValue p.cur.attributes a []
      .ok { p with cur := { p.cur with attributes := m } }
    | none => .ok p
  | .AttributeValue => do
    let t ← tokenText c s
    match p.pending with
    | some a => do
      let m ← attrSetValue p.cur.attributes a t
      .ok { p with cur := { p.cur with attributes := m }, pending := none }
    | none => .ok p
  | _ => .ok p

/-- Closing of everything at the end of input, html_parse.rs 154-158; `parents` is
consumed one by one, the result is the document node. -/
def finishAll (len : Nat) : Node → List Node → Node
  | cur, [] => cur
  | cur, q :: qs => finishAll len (q.addChild { cur with stop := len, closed := false }) qs

/-- The main loop, html_parse.rs 55-153 (fuel: one unit per token). -/
def parseLoop (c : Cfg) (void : List Str) : Nat → PState → Sc → R PState
  | 0, _, _ => .error .fuel
  | fuel + 1, p, s => do
    let s1 ← scan c s
    if s1.tokenType = .EOS then .ok p
    else parseLoop c void fuel (← parseStep c void p s1) s1

/-- Initial values of the local variables, html_parse.rs 47-52. -/
def PState.init (len : Nat) : PState where
  cur := Node.new 0 len []
  parents := []
  endTagStart := none
  endTagName := none
  pending := none

/-- The configuration with which the parser creates its scanner, html_parse.rs 45. -/
def parserCfg (u : Uni) (caseSensitive : Bool) (src : Str) : Cfg where
  uni := u
  src := src
  emitPseudo := true
  caseSensitive := caseSensitive

/-- `parse_html_document`, html_parse.rs 38-165; `void` is
`data_manager.get_void_elements(language_id)`.  The result is the list of roots. -/
def parse (u : Uni) (caseSensitive : Bool) (void : List Str) (src : Str) : R (List Node) := do
  let c := parserCfg u caseSensitive src
  let p ← parseLoop c void (2 * src.length + 1) (.init src.length) (.new 0 .WithinContent)
  .ok (finishAll src.length p.cur p.parents).children

end Html
