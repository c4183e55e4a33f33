import Verif.Model.Parser
import Verif.Model.TextDocument

/-!
# Services for tag names

Linked editing, matching tag position, rename, highlight
(`/repo/src/services/html_linked_editing.rs`, `html_matching_tag_position.rs`,
`html_rename.rs`, `html_highlight.rs`).  `roots` is the `HTMLDocument`.
-/

namespace Html

/-- `find_linked_editing_ranges`, html_linked_editing.rs 6-38. -/
def findLinkedEditingRanges (d : TextDoc) (position : Pos) (roots : List Node) :
    Option (List Range) := do
  let offset := d.offsetAt position
  let (node, _) ← findNodeAt roots offset
  let tagLen := match node.tag with
    | some tag => tag.length
    | none => 0
  let endTagStart ← node.endTagStart
  if (node.start + 1 ≤ offset ∧ offset ≤ node.start + 1 + tagLen) ∨
      (endTagStart + 2 ≤ offset ∧ offset ≤ endTagStart + 2 + tagLen) then
    some [⟨d.posAt (node.start + 1), d.posAt (node.start + 1 + tagLen)⟩,
      ⟨d.posAt (endTagStart + 2), d.posAt (endTagStart + 2 + tagLen)⟩]
  else none

/-- `find_matching_tag_position`, html_matching_tag_position.rs 6-31.  The subtractions
happen only where they cannot underflow. -/
def findMatchingTagPosition (d : TextDoc) (position : Pos) (roots : List Node) : Option Pos := do
  let offset := d.offsetAt position
  let (node, _) ← findNodeAt roots offset
  let tag ← node.tag
  let endTagStart ← node.endTagStart
  if node.start + 1 ≤ offset ∧ offset ≤ node.start + 1 + tag.length then
    some (d.posAt ((offset - 1 - node.start) + endTagStart + 2))
  else if endTagStart + 2 ≤ offset ∧ offset ≤ endTagStart + 2 + tag.length then
    some (d.posAt ((offset - 2 - endTagStart) + node.start + 1))
  else none

/-- `lsp_types::TextEdit`. -/
structure TextEdit where
  range : Range
  newText : Str
deriving DecidableEq, Repr

/-- `is_within_tag_range`, html_rename.rs 46-56. -/
def isWithinTagRange (node : Node) (offset : Nat) (tag : Str) : Bool :=
  (match node.endTagStart with
    | some e => decide (e + 2 ≤ offset ∧ offset ≤ e + 2 + tag.length)
    | none => false) ||
  decide (node.start + 1 ≤ offset ∧ offset ≤ node.start + 1 + tag.length)

/-- `do_rename`, html_rename.rs 8-44: the edits (all of them are for the given URI). -/
def doRename (d : TextDoc) (position : Pos) (newName : Str) (roots : List Node) :
    Option (List TextEdit) := do
  let offset := d.offsetAt position
  let (node, _) ← findNodeAt roots offset
  let tag ← node.tag
  if isWithinTagRange node offset tag then
    let startEdit : TextEdit :=
      ⟨⟨d.posAt (node.start + 1), d.posAt (node.start + 1 + tag.length)⟩, newName⟩
    match node.endTagStart with
    | some e => some [startEdit, ⟨⟨d.posAt (e + 2), d.posAt (e + 2 + tag.length)⟩, newName⟩]
    | none => some [startEdit]
  else none

/-- `is_before_or_equal`, html_highlight.rs 58-60. -/
def Pos.le (a b : Pos) : Bool :=
  decide (a.line < b.line ∨ (a.line = b.line ∧ a.character ≤ b.character))

/-- `covers`, html_highlight.rs 62-64. -/
def Range.covers (r : Range) (p : Pos) : Bool := r.start.le p && p.le r.stop

/-- The loop of `get_tag_name_range`, html_highlight.rs 79-82 (fuel: one unit per token). -/
def scanTo (c : Cfg) (t : TT) : Nat → Sc → R Sc
  | 0, _ => .error .fuel
  | fuel + 1, s => do
    let s1 ← scan c s
    if s1.tokenType = .EOS ∨ s1.tokenType = t then .ok s1 else scanTo c t fuel s1

/-- `get_tag_name_range`, html_highlight.rs 66-91. -/
def getTagNameRange (u : Uni) (cs : Bool) (d : TextDoc) (t : TT) (startOffset : Nat) :
    R (Option Range) := do
  let c : Cfg := ⟨u, d.text, false, cs⟩
  let s ← scanTo c t (2 * d.text.length + 1) (.new startOffset .WithinContent)
  if s.tokenType ≠ .EOS then .ok (some ⟨d.posAt s.tokenOffset, d.posAt s.tokenEnd⟩) else .ok none

/-- `find_document_highlights`, html_highlight.rs 9-56: the ranges (the kind is always
READ). -/
def findDocumentHighlights (u : Uni) (cs : Bool) (d : TextDoc) (position : Pos) (roots : List Node) :
    R (List Range) :=
  match findNodeAt roots (d.offsetAt position) with
  | none => .ok []
  | some (node, _) =>
    if node.tag.isNone then .ok []
    else do
      let startR ← getTagNameRange u cs d .StartTag node.start
      let endR ← (if node.isSelfClosing then .ok none
        else do
          let e ← unwrap node.endTagStart
          getTagNameRange u cs d .EndTag e)
      if startR.any (·.covers position) || endR.any (·.covers position) then
        .ok (startR.toList ++ endR.toList)
      else .ok []

end Html
