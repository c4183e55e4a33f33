import Verif.Model.Document
import Verif.Model.TextDocument

/-!
# Selection ranges (`/repo/src/services/html_selection_range.rs`)
-/

namespace Html

/-- `FullTextDocument::get_content(Some(range))`: the text between the offsets of the ends; a
panic if this is no substring. -/
def TextDoc.content (d : TextDoc) (r : Range) : R Str :=
  sliceStr d.text (d.offsetAt r.start) (d.offsetAt r.stop)

/-- `lsp_types::SelectionRange`, with `parent: None` and `parent: Some(..)`. -/
inductive SelRange
  | top (range : Range)
  | inner (range : Range) (parent : SelRange)
deriving DecidableEq, Repr

/-- `SelectionRange { range, parent }`. -/
def SelRange.mk (range : Range) : Option SelRange → SelRange
  | none => .top range
  | some p => .inner range p

/-- `get_node_ranges`, html_selection_range.rs 163-172. -/
def nodeRanges (n : Node) : List (Nat × Nat) :=
  match n.startTagEnd, n.endTagStart with
  | some a, some b => if a < b then [(a, b), (n.start, n.stop)] else [(n.start, n.stop)]
  | _, _ => [(n.start, n.stop)]

/-- `html_document.roots`, html_selection_range.rs 153-158. -/
def rootsRange (roots : List Node) : List (Nat × Nat) :=
  match roots.head?, roots.getLast? with
  | some a, some b => [(a.start, b.stop)]
  | _, _ => []

/-- `get_all_parent_tag_ranges`, html_selection_range.rs 140-161; the parents are given outermost
first. -/
def allParentRanges (parents roots : List Node) : List (Nat × Nat) :=
  (parents.reverse.map nodeRanges).flatten ++ rootsRange roots

/-- The local variables of `get_attribute_level_ranges`, html_selection_range.rs 203-206. -/
structure AttrSel where
  result : List (Nat × Nat)
  inside : Bool
  attrStart : Nat
deriving DecidableEq, Repr

/-- `value_text.get(0..1)` and `value_text.get((value_text.len() - 1)..)` are both the same
quote, html_selection_range.rs 234-240 (a token text is never empty; `get` is `None` off
character boundaries, but then the byte there is no quote). -/
def bothQuotes (text : Str) : Bool :=
  (text.head? == some 34 && text.getLast? == some 34) ||
  (text.head? == some 39 && text.getLast? == some 39)

/-- One token, html_selection_range.rs 209-256. -/
def attrSelStep (src : Str) (rel : Nat) (a : AttrSel) (t : Tok) : R AttrSel :=
  match t.type with
  | .AttributeName =>
    if rel < t.offset then .ok { a with inside := false }
    else .ok
      { result := if rel ≤ t.stop then (t.offset, t.stop) :: a.result else a.result,
        inside := true, attrStart := t.offset }
  | .AttributeValue =>
    if a.inside then do
      let text ← sliceStr src t.offset t.stop
      if rel < t.offset then .ok { a with result := a.result ++ [(a.attrStart, t.stop)] }
      else if rel ≤ t.stop then
        let r1 := (t.offset, t.stop) :: a.result
        let r2 := if bothQuotes text ∧ t.offset + 1 ≤ rel ∧ rel ≤ t.stop - 1 then
          (t.offset + 1, t.stop - 1) :: r1 else r1
        .ok { a with result := r2 ++ [(a.attrStart, t.stop)] }
      else .ok a
    else .ok a
  | _ => .ok a

/-- The loop, html_selection_range.rs 196, 208-258 (fuel: one unit per token). -/
def attrSelLoop (c : Cfg) (rel : Nat) : Nat → AttrSel → Sc → R AttrSel
  | 0, _, _ => .error .fuel
  | fuel + 1, a, s => do
    let s1 ← scan c s
    if s1.tokenType = .EOS then .ok a
    else do
      let a1 ← attrSelStep c.src rel a s1.tok
      attrSelLoop c rel fuel a1 s1

/-- `get_attribute_level_ranges`, html_selection_range.rs 174-263. -/
def attributeRanges (u : Uni) (cs : Bool) (d : TextDoc) (n : Node) (cur : Nat) :
    R (List (Nat × Nat)) := do
  let text ← d.content ⟨d.posAt n.start, d.posAt n.stop⟩
  let rel ← subU cur n.start
  let a ← attrSelLoop ⟨u, text, false, cs⟩ rel (2 * text.length + 2) ⟨[], false, 0⟩
    (.new 0 .WithinContent)
  .ok (a.result.map (fun p => (p.1 + n.start, p.2 + n.start)))

/-- The part of `get_applicable_ranges` for an element with `start_tag_end` and no
`end_tag_start`, html_selection_range.rs 76-103. -/
def voidRanges (u : Uni) (cs : Bool) (d : TextDoc) (n : Node) (ste cur : Nat)
    (result : List (Nat × Nat)) : R (List (Nat × Nat)) :=
  if ste ≠ n.stop then .ok [(n.start, n.stop)]
  else do
    let a ← subU ste 2
    let closeText ← d.content ⟨d.posAt a, d.posAt ste⟩
    let stop := if closeText = b!"/>" then ste - 2 else ste - 1
    let attrs ← attributeRanges u cs d n cur
    .ok (attrs ++ (n.start + 1, stop) :: result)

/-- The part of `get_applicable_ranges` for an element with both tags, html_selection_range.rs
109-137. -/
def pairRanges (u : Uni) (cs : Bool) (d : TextDoc) (n : Node) (ste ets cur : Nat)
    (result : List (Nat × Nat)) : R (List (Nat × Nat)) :=
  let result := (n.start, n.stop) :: result
  if n.start < cur ∧ cur < ste then do
    let e ← subU ste 1
    let attrs ← attributeRanges u cs d n cur
    .ok (attrs ++ (n.start + 1, e) :: result)
  else if ste ≤ cur ∧ cur ≤ ets then .ok ((ste, ets) :: result)
  else if ets + 2 ≤ cur then do
    let e ← subU n.stop 1
    .ok ((ets + 2, e) :: result)
  else .ok result

/-- `get_applicable_ranges`, html_selection_range.rs 64-138. -/
def applicableRanges (u : Uni) (cs : Bool) (d : TextDoc) (roots : List Node) (position : Pos) :
    R (List (Nat × Nat)) :=
  let cur := d.offsetAt position
  match findNodeAt roots cur with
  | none => .ok (allParentRanges [] roots)
  | some (n, parents) =>
    let result := allParentRanges parents roots
    match n.startTagEnd, n.endTagStart with
    | some ste, none => voidRanges u cs d n ste cur result
    | some ste, some ets => pairRanges u cs d n ste ets cur result
    | none, _ => .ok result

/-- One iteration of the loop of `get_selection_range`, html_selection_range.rs 35-45; the state is
`(prev, current)`. -/
def selStep (d : TextDoc) (range : Nat × Nat) (s : Option (Nat × Nat) × Option SelRange) :
    Option (Nat × Nat) × Option SelRange :=
  (some range,
    if s.1 = some range then s.2
    else some (.mk ⟨d.posAt range.1, d.posAt range.2⟩ s.2))

/-- `get_selection_range`, html_selection_range.rs 23-62. -/
def selectionRange (u : Uni) (cs : Bool) (d : TextDoc) (roots : List Node) (position : Pos) :
    R SelRange := do
  let ranges ← applicableRanges u cs d roots position
  match (ranges.foldr (selStep d) (none, none)).2 with
  | none => .ok (.top ⟨position, position⟩)
  | some s => .ok s

/-- `get_selection_ranges`, html_selection_range.rs 11-21. -/
def getSelectionRanges (u : Uni) (cs : Bool) (d : TextDoc) (roots : List Node) (positions : List Pos) :
    R (List SelRange) :=
  positions.mapM (selectionRange u cs d roots)

end Html
