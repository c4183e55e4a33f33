import Verif.Spec.Format

/-!
# How a formatted document is laid out

Where line breaks and indentation go.  `k` is the depth of an element.
-/

namespace Html.Spec
open Html

/-- Words with one space between them. -/
def spaced : List Str → Str
  | [] => []
  | [w] => w
  | w :: ws => w ++ b!" " ++ spaced ws

/-- The indentation at depth `k`. -/
def indentation (o : FormatOptions) (k : Nat) : Str :=
  if o.insertSpaces then List.replicate (o.tabSize * k) 32 else List.replicate k 9

/-- A line of this length is too long. -/
def TooLong (o : FormatOptions) (n : Nat) : Prop := ∃ w, o.wrapLineLength = some w ∧ w < n

/-! ### Tags -/

/-- A start tag on one line. -/
def oneLine (o : FormatOptions) (k : Nat) (n : Node) (tag : Str) : Str :=
  indentation o k ++ b!"<" ++ tag ++ n.attributesByOrder.flatMap (fun x => b!" " ++ attrText x) ++
    if n.endTagStart = none then b!" />" else b!">"

/-- The indentation of an attribute on a line of its own: if it is made of tabs, there is a line break
instead of a further tab. -/
def attrIndentation (o : FormatOptions) (k : Nat) : Str :=
  indentation o k ++
    if o.insertSpaces then List.replicate (o.wrapAttributesIndentSize.getD o.tabSize) 32
    else if o.wrapAttributesIndentSize = some 0 then [] else [10]

/-- A start tag with every attribute, and the end, on a line of its own. -/
def manyLines (o : FormatOptions) (k : Nat) (n : Node) (tag : Str) : Str :=
  indentation o k ++ b!"<" ++ tag ++ n.attributesByOrder.flatMap (fun x => b!"\n" ++ attrIndentation o k ++ attrText x) ++
    b!"\n" ++ indentation o k ++ if n.endTagStart = none then b!"/>" else b!">"

/-- The start tag is too long for one line. -/
def WrapsTag (o : FormatOptions) (k : Nat) (n : Node) (tag : Str) : Prop := TooLong o (oneLine o k n tag).length

open Classical in
/-- A start tag: on one line unless it is too long. -/
noncomputable def startText (o : FormatOptions) (k : Nat) (n : Node) (tag : Str) : Str :=
  if WrapsTag o k n tag then manyLines o k n tag else oneLine o k n tag

/-- The element takes several lines: its content does in the source, or the element is too long for one line (one
character more than there is gets counted). -/
def Wraps (o : FormatOptions) (k : Nat) (n : Node) (tag content : Str) : Prop :=
  10 ∈ content ∨ TooLong o ((oneLine o k n tag).length + content.length + (b!"</" ++ tag ++ b!">").length + 1)

open Classical in
/-- An end tag: on a line of its own if the element takes several lines. -/
noncomputable def endText (o : FormatOptions) (k : Nat) (n : Node) (tag content : Str) : Str :=
  (if WrapsTag o k n tag ∨ Wraps o k n tag content then b!"\n" ++ indentation o k else []) ++
    b!"</" ++ tag ++ b!">"

/-! ### Texts -/

/-- Lines with line breaks between them. -/
def unlines : List Str → Str
  | [] => []
  | [l] => l
  | l :: ls => l ++ [10] ++ unlines ls

/-- The lines of a text. -/
def LinesOf (text : Str) (ls : List Str) : Prop := ls ≠ [] ∧ (∀ l ∈ ls, 10 ∉ l) ∧ text = unlines ls

/-- Without the first line if that is blank. -/
def dropBlank : List (List Str) → List (List Str)
  | [] :: l => l
  | l => l

/-- Without the first and the last line if they are blank: these are the lines of the tags around the text. -/
def dropEnds (l : List (List Str)) : List (List Str) := (dropBlank (dropBlank l).reverse).reverse

/-- How many of `k` blank lines in a row are left. -/
def keptEmpty (o : FormatOptions) (k : Nat) : Nat :=
  if o.preserveNewLines then (match o.maxPreserveNewLines with | some m => min k m | none => k) else 0

/-- Some empty lines. -/
def emptyLines (o : FormatOptions) (k n : Nat) : Str :=
  (List.replicate n (b!"\n" ++ if o.indentEmptyLines then indentation o k else [])).flatten

/-- Lines of words, given by `g`: every line is on a line of its own, followed by the blank lines that are left. -/
def filled (o : FormatOptions) (k : Nat) (gs : List (List Str × Nat)) : Str :=
  gs.flatMap fun g => b!"\n" ++ indentation o k ++ spaced g.1 ++ emptyLines o k (keptEmpty o g.2)

/-- The words of the lines `ls` are `m` blank lines, then those of `gs`, every line followed by as many blank lines as
`gs` says. -/
def Paragraphs (ls : List (List Str)) (m : Nat) (gs : List (List Str × Nat)) : Prop :=
  (∀ g ∈ gs, g.1 ≠ []) ∧ ls = List.replicate m [] ++ gs.flatMap fun g => g.1 :: List.replicate g.2 []

/-- A text on one line keeps its words, with single spaces.  Of a text on several lines, every line that is not
blank is put on a line of its own and indented, and of blank lines in a row not too many are left. -/
def TextLaid (o : FormatOptions) (k : Nat) (text out : Str) : Prop :=
  (10 ∉ text → out = spaced (words text)) ∧
  (10 ∈ text → ∃ ls m gs, LinesOf text ls ∧ Paragraphs (dropEnds (ls.map words)) m gs ∧
    out = emptyLines o k (keptEmpty o m) ++ filled o k gs)

/-! ### Elements -/

/-- The text of an element without children: if the element takes several lines, the text begins on a new line. -/
def LeafLaid (o : FormatOptions) (k : Nat) (n : Node) (tag content out : Str) : Prop :=
  ∃ t, TextLaid o (k + 1) content t ∧
    ((Wraps o k n tag content ∧ words content ≠ [] → ∃ r, Trimmed t r ∧ out = b!"\n" ++ indentation o (k + 1) ++ r) ∧
     (¬ (Wraps o k n tag content ∧ words content ≠ []) → out = t))

mutual
/-- How an element at depth `k` is laid out. -/
def NodeLaid (o : FormatOptions) (src : Str) (k : Nat) : Node → Str → Prop
  | ⟨tag, start, stop, children, closed, ste, ets, attrs⟩, out =>
    let n : Node := ⟨tag, start, stop, children, closed, ste, ets, attrs⟩
    ∃ t, tag = some t ∧
      match ets with
      | none => out = startText o k n t
      | some e => ∃ s body, ste = some s ∧ out = startText o k n t ++ body ++ endText o k n t (bytesIn src s e) ∧
          (children = [] → LeafLaid o k n t (bytesIn src s e) body) ∧
          (children ≠ [] → KidsLaid o src (k + 1) s e children body)
/-- How the source between `prev` and `stop` is laid out: every child begins a line. -/
def KidsLaid (o : FormatOptions) (src : Str) (k prev stop : Nat) : List Node → Str → Prop
  | [], out => TextLaid o k (bytesIn src prev stop) out
  | c :: l, out => ∃ a x r, out = a ++ b!"\n" ++ x ++ r ∧ TextLaid o k (bytesIn src prev c.start) a ∧
      NodeLaid o src k c x ∧ KidsLaid o src k c.stop stop l r
end

/-- The roots follow each other without any white space. -/
def RootsLaid (o : FormatOptions) (src : Str) : List Node → Str → Prop
  | [], out => out = []
  | n :: l, out => ∃ x r, out = x ++ r ∧ NodeLaid o src 0 n x ∧ RootsLaid o src l r

/-- The element is shown at depth `k`. -/
inductive ShownAt (roots : List Node) : Nat → Node → Prop
  | root {n : Node} (h : n ∈ roots) : ShownAt roots 0 n
  | child {k : Nat} {m n : Node} (hm : ShownAt roots k m) (he : m.endTagStart ≠ none) (h : n ∈ m.children) :
      ShownAt roots (k + 1) n

end Html.Spec
