import Verif.Model.Formatter
import Verif.Spec.Print

/-!
# What formatting keeps

A formatted document is a sequence of *pieces* (`<name`, `name=value`, `>`, words of texts, `</name>`)
with white space between them.
-/

namespace Html.Spec
open Html

/-- The words of a text: the maximal runs of characters other than white space. -/
def wordsC : List Str → List Str
  | [] => []
  | c :: l =>
    if isBlankChar c then wordsC l
    else if l.head?.any (fun d => !isBlankChar d) then
      match wordsC l with
      | w :: ws => (c ++ w) :: ws
      | [] => [c]
    else c :: wordsC l

/-- The words of a text. -/
def words (s : Str) : List Str := wordsC (charsOf s)

/-- A piece of a document; `apart` means that there must be white space in front of it. -/
structure Piece where
  apart : Bool
  text : Str
deriving DecidableEq, Repr

/-- The text consists of these pieces in this order, with white space `blank` in front of, between
and behind them, at least where it must be. -/
def Laid (blank : Str → Prop) : List Piece → Str → Prop
  | [], s => blank s
  | p :: ps, s => ∃ w r, s = w ++ p.text ++ r ∧ blank w ∧ (p.apart = true → w ≠ []) ∧ Laid blank ps r

/-- The white space that the formatter writes. -/
def Layout (w : Str) : Prop := ∀ b ∈ w, b = 32 ∨ b = 9 ∨ b = 10

/-- Any white space. -/
def Blank (w : Str) : Prop := ∀ c ∈ charsOf w, isBlankChar c = true

/-- `t` is what is left of `s` without the white space at its start. -/
def Trimmed (s t : Str) : Prop :=
  ∃ w, s = w ++ t ∧ Blank w ∧ ∀ c, (charsOf t).head? = some c → isBlankChar c = false

/-- Words of a text as pieces: they stay apart from each other. -/
def phrase : List Str → List Piece
  | [] => []
  | w :: ws => ⟨false, w⟩ :: ws.map (⟨true, ·⟩)

/-- The words of a text as pieces. -/
def wordPieces (s : Str) : List Piece := phrase (words s)

/-- The attributes of a start tag. -/
def attrPieces (as : List (Str × Attr)) : List Piece := as.map (fun x => ⟨true, attrText x⟩)

mutual
/-- The pieces of an element.  An element without an end tag is a start tag that ends in `/>`: the
pieces of its content are not among them. -/
def nodePieces (src : Str) : Node → List Piece
  | ⟨tag, start, stop, children, closed, ste, ets, attrs⟩ =>
    let node : Node := ⟨tag, start, stop, children, closed, ste, ets, attrs⟩
    ⟨false, b!"<" ++ tag.getD []⟩ :: attrPieces node.attributesByOrder ++
    match ets with
    | none => [⟨true, b!"/>"⟩]
    | some e =>
      [⟨false, b!">"⟩] ++ kidsPieces src (ste.getD 0) e children ++ [⟨false, b!"</" ++ tag.getD [] ++ b!">"⟩]
/-- The pieces of the source between `prev` and `stop`: the children and the words of the texts in
front of, between and behind them. -/
def kidsPieces (src : Str) (prev stop : Nat) : List Node → List Piece
  | [] => wordPieces (bytesIn src prev stop)
  | c :: l => wordPieces (bytesIn src prev c.start) ++ nodePieces src c ++ kidsPieces src c.stop stop l
end

/-- The pieces of a document: those of its elements.  Text outside of the elements is not among
them. -/
def docPieces (src : Str) (roots : List Node) : List Piece := roots.flatMap (nodePieces src)

/-- The characters of a text other than white space. -/
def ink (s : Str) : Str := ((charsOf s).filter (fun c => !isBlankChar c)).flatten

/-- The item is an element. -/
def Item.isElement : Item → Bool
  | .text _ => false
  | .comment _ => false
  | .doctype _ _ => false
  | _ => true

mutual
/-- The item with all void elements `<name>` written as `<name/>`. -/
def Item.closeVoid : Item → Item
  | .text t => .text t
  | .comment b => .comment b
  | .doctype w b => .doctype w b
  | .elem tag kids gap => .elem tag (closeVoids kids) gap
  | .void tag => .selfClosed tag
  | .selfClosed tag => .selfClosed tag
/-- The items with all void elements `<name>` written as `<name/>`. -/
def closeVoids : List Item → List Item
  | [] => []
  | i :: l => i.closeVoid :: closeVoids l
end

/-- What formatting leaves of a document: its elements, without the texts, the comments and
the doctypes between them. -/
def kept (items : List Item) : List Item := closeVoids (items.filter (·.isElement))

/-- The elements that end up in the formatted document: the roots, and the children of elements that
have an end tag. -/
inductive Shown (roots : List Node) : Node → Prop
  | root {n : Node} (h : n ∈ roots) : Shown roots n
  | child {m n : Node} (hm : Shown roots m) (he : m.endTagStart ≠ none) (h : n ∈ m.children) :
      Shown roots n

/-- A space or a tab. -/
def TabOrSpace (text : Str) (i : Nat) : Prop := text[i]? = some 32 ∨ text[i]? = some 9

/-- The start `s` of the text that is formatted when the selection starts at `i`: the blanks in front of `i` belong to
it if nothing else is in front of them on the line, otherwise all but the first. -/
def RangeStart (text : Str) (i s : Nat) : Prop :=
  ∃ x, x ≤ i ∧ (∀ j, x ≤ j → j < i → TabOrSpace text j) ∧ (x = 0 ∨ ¬ TabOrSpace text (x - 1)) ∧
    s = (if x = 0 ∨ text[x - 1]? = some 10 then x else min (x + 1) i)

/-- The end `t` of the text that is formatted when the selection ends at `i`: the blanks behind `i` belong to it if
nothing else is behind them on the line. -/
def RangeEnd (text : Str) (i t : Nat) : Prop :=
  ∃ x, i ≤ x ∧ (∀ j, i ≤ j → j < x → TabOrSpace text j) ∧ ¬ TabOrSpace text x ∧
    t = (if x = text.length ∨ text[x]? = some 10 then x else i)

end Html.Spec
