import Verif.Model.Parser
import Verif.Model.TagServices

/-!
# Formatting

`/repo/src/services/html_formatter.rs` and `/repo/src/beautify/beautify_html.rs`.
-/

namespace Html

/-! ### Characters of a text -/

/-- A group of bytes that is no character of its own: a single continuation byte. -/
def isStray : Str → Bool
  | [b] => isCont b
  | _ => false

/-- `str::chars`, every character as the list of its bytes. -/
def charsOf : Str → List Str
  | [] => []
  | b :: t =>
    if 192 ≤ b then (b :: ((charsOf t).takeWhile isStray).flatten) :: (charsOf t).dropWhile isStray
    else [b] :: charsOf t

/-- The character is white space (`\s` and `char::is_whitespace`). -/
def isBlankChar (c : Str) : Bool := isSpaceCP (codePoint c)

/-- `trim_start` on the characters. -/
def trimLeftC (l : List Str) : List Str := l.dropWhile isBlankChar

/-- `trim` on the characters. -/
def trimC (l : List Str) : List Str := (trimLeftC (trimLeftC l).reverse).reverse

/-- `replace_all("\\s+", " ")` on the characters. -/
def collapseC : List Str → List Str
  | [] => []
  | c :: l =>
    if isBlankChar c then
      (if l.head?.any isBlankChar then collapseC l else [32] :: collapseC l)
    else c :: collapseC l

/-- `whitespace_reg.replace_all(s.trim(), " ")`, beautify_html.rs 127, 150. -/
def tidy (s : Str) : Str := (collapseC (trimC (charsOf s))).flatten

/-- `str::trim_start` and `trim_left`, html_formatter.rs 115-117. -/
def trimLeftStr (s : Str) : Str := (trimLeftC (charsOf s)).flatten

/-- `str::lines`, up to a trailing `\r` of a line (the lines are trimmed afterwards). -/
def linesOf : Str → List Str
  | [] => []
  | b :: t =>
    if b = 10 then [] :: linesOf t
    else
      match linesOf t with
      | [] => [[b]]
      | l :: ls => (b :: l) :: ls

/-! ### Options -/

/-- `HTMLFormatConfiguration`, html_formatter.rs 148-167. -/
structure FormatOptions where
  tabSize : Nat
  insertSpaces : Bool
  indentEmptyLines : Bool
  wrapLineLength : Option Nat
  wrapAttributesIndentSize : Option Nat
  preserveNewLines : Bool
  maxPreserveNewLines : Option Nat
  endWithNewline : Bool

/-- `HTMLFormatConfiguration::default`, html_formatter.rs 169-192. -/
def FormatOptions.default : FormatOptions := ⟨4, true, false, some 120, none, true, some 32786, false⟩

/-- `get_indent`, beautify_html.rs 154-160. -/
def indentText (o : FormatOptions) (level : Nat) : Str :=
  if o.insertSpaces then List.replicate (o.tabSize * level) 32 else List.replicate level 9

/-- `get_attr_indent`, beautify_html.rs 162-178. -/
def attrIndent (o : FormatOptions) (level : Nat) : Str :=
  indentText o level ++
  match o.wrapAttributesIndentSize with
  | some n => if o.insertSpaces then List.replicate n 32 else if n > 0 then [10] else []
  | none => if o.insertSpaces then List.replicate o.tabSize 32 else [10]

/-! ### Texts -/

/-- The loop of `beautify_text`, beautify_html.rs 123-147: `i` is the number of the line, `kept` is
`preserve_count`. -/
def beautifyLines (o : FormatOptions) (level count : Nat) (newline : Bool) : Nat → Nat → List Str → Str
  | _, _, [] => []
  | i, kept, l :: ls =>
    if (tidy l).length > 0 then
      [10] ++ indentText o level ++ tidy l ++ beautifyLines o level count newline (i + 1) 0 ls
    else if i ≠ 0 ∧ (i ≠ count - 1 ∨ newline) ∧ o.preserveNewLines ∧
        (o.maxPreserveNewLines.all (fun v => v > kept)) then
      [10] ++ (if o.indentEmptyLines then indentText o level else []) ++
        beautifyLines o level count newline (i + 1) (kept + 1) ls
    else if i ≠ 0 then beautifyLines o level count newline (i + 1) (kept + 1) ls
    else beautifyLines o level count newline (i + 1) kept ls

/-- `beautify_text`, beautify_html.rs 118-152. -/
def beautifyText (o : FormatOptions) (level : Nat) (text : Str) : Str :=
  if 10 ∈ text then
    beautifyLines o level (linesOf text).length (text.getLast? = some 10) 0 0 (linesOf text)
  else tidy text

/-! ### Nodes -/

/-- Insertion of an attribute in front of the first one with a larger offset. -/
def insertAttr (x : Str × Attr) : List (Str × Attr) → List (Str × Attr)
  | [] => [x]
  | y :: l => if x.2.offset ≤ y.2.offset then x :: y :: l else y :: insertAttr x l

/-- `Node::attribute_names_by_order`, html_document.rs 64-72, with the attributes of the names. -/
def Node.attributesByOrder (n : Node) : List (Str × Attr) := n.attributes.foldr insertAttr []

/-- `name=value` or `name`, beautify_html.rs 42-58. -/
def attrText (x : Str × Attr) : Str :=
  match x.2.value with
  | some v => x.1 ++ b!"=" ++ v
  | none => x.1

/-- `get_left_tag_len`, beautify_html.rs 232-257, of a node with a tag. -/
def leftTagLen (o : FormatOptions) (level : Nat) (n : Node) (tag : Str) : Nat :=
  (indentText o level).length + 1 + tag.length +
    (n.attributes.map (fun x => match x.2.value with
      | some v => 1 + x.1.length + 1 + v.length
      | none => 1 + x.1.length)).sum +
    if n.isSelfClosing then 3 else 1

/-- `node_attrs_is_wrap`, beautify_html.rs 220-230, of a node with a tag. -/
def attrsWrap (o : FormatOptions) (level : Nat) (n : Node) (tag : Str) : Bool :=
  match o.wrapLineLength with
  | none => false
  | some w => leftTagLen o level n tag > w

/-- `attrs_format`, beautify_html.rs 34-59. -/
def attrsText (o : FormatOptions) (level : Nat) (n : Node) (tag : Str) : Str :=
  n.attributesByOrder.flatMap (fun x =>
    (if attrsWrap o level n tag then [10] ++ attrIndent o level else [32]) ++ attrText x)

/-- `node_is_wrap`, beautify_html.rs 184-218, of a node with a tag and an end tag. -/
def nodeWrap (o : FormatOptions) (src : Str) (level : Nat) (n : Node) (tag : Str) (s e : Nat) : R Bool := do
  let text ← sliceStr src s e
  if 10 ∈ text then .ok true
  else
    match o.wrapLineLength with
    | none => .ok false
    | some w => do
      let len ← subU e s
      .ok (leftTagLen o level n tag + len + 2 + tag.length + 2 > w)

/-- The content of an element without children, beautify_html.rs 89-101. -/
def textOnly (o : FormatOptions) (src : Str) (level : Nat) (wrap : Bool) (s e : Nat) : R Str :=
  if s = e then .ok []
  else do
    let t ← sliceStr src s e
    let text := beautifyText o (level + 1) t
    .ok (if wrap ∧ (trimC (charsOf text)).flatten.length > 0 then
        [10] ++ indentText o (level + 1) ++ trimLeftStr text
      else text)

/-- The content of an element without children, none otherwise, beautify_html.rs 89. -/
def leafText (o : FormatOptions) (src : Str) (level : Nat) (wrap : Bool) (s e : Nat) (children : List Node) :
    R Str :=
  if children.isEmpty then textOnly o src level wrap s e else .ok []

/-- The text of a start tag up to its `>`, beautify_html.rs 62-67, 102-115. -/
def openText (o : FormatOptions) (level : Nat) (n : Node) (tag : Str) : Str :=
  indentText o level ++ b!"<" ++ tag ++ attrsText o level n tag

mutual
/-- `beautify_node`, beautify_html.rs 27-116. -/
def Node.beautify (o : FormatOptions) (src : Str) (level : Nat) : Node → R Str
  | ⟨tag, start, stop, children, closed, ste, ets, attrs⟩ => do
    let node : Node := ⟨tag, start, stop, children, closed, ste, ets, attrs⟩
    let tag ← unwrap tag
    match ets with
    | none =>
      .ok (openText o level node tag ++
        if attrsWrap o level node tag then [10] ++ indentText o level ++ b!"/>" else b!" />")
    | some e => do
      let s ← unwrap ste
      let kids ← Node.beautifyKids o src (level + 1) s e children
      let wrap ← nodeWrap o src level node tag s e
      let text ← leafText o src level wrap s e children
      .ok (openText o level node tag ++
        (if attrsWrap o level node tag then [10] ++ indentText o level else []) ++ b!">" ++
        kids ++ text ++
        (if attrsWrap o level node tag ∨ wrap then [10] ++ indentText o level else []) ++
        b!"</" ++ tag ++ b!">")
/-- The loop over the children, beautify_html.rs 71-87: nothing without children. -/
def Node.beautifyKids (o : FormatOptions) (src : Str) (level prev stop : Nat) : List Node → R Str
  | [] => .ok []
  | [c] => do
    let before ← sliceStr src prev c.start
    let x ← c.beautify o src level
    let after ← sliceStr src c.stop stop
    .ok (beautifyText o level before ++ [10] ++ x ++ beautifyText o level after)
  | c :: d :: l => do
    let before ← sliceStr src prev c.start
    let x ← c.beautify o src level
    let rest ← Node.beautifyKids o src level c.stop stop (d :: l)
    .ok (beautifyText o level before ++ [10] ++ x ++ rest)
end

/-- The loop over the roots, beautify_html.rs 17-19. -/
def beautifyRoots (o : FormatOptions) (src : Str) : List Node → R Str
  | [] => .ok []
  | n :: l => do
    let x ← n.beautify o src 0
    let rest ← beautifyRoots o src l
    .ok (x ++ rest)

/-- `html_beautify`, beautify_html.rs 9-25; `void` are the void elements of the default data
manager. -/
def htmlBeautify (u : Uni) (cs : Bool) (void : List Str) (o : FormatOptions) (content : Str) : R Str := do
  let roots ← parse u cs void content
  let text ← beautifyRoots o content roots
  .ok (if text.getLast? ≠ some 10 ∧ o.endWithNewline then text ++ [10] else text)

/-! ### The service -/

/-- `is_eol`, html_formatter.rs 139-141. -/
def isEolAt (text : Str) (i : Nat) : Bool := (sliceStr text i (i + 1)).toOption == some [10]

/-- `is_whitespace`, html_formatter.rs 143-146. -/
def isBlankAt (text : Str) (i : Nat) : Bool :=
  (sliceStr text i (i + 1)).toOption == some [32] || (sliceStr text i (i + 1)).toOption == some [9]

/-- `extended_start`, html_formatter.rs 20-23. -/
def extendStart (text : Str) : Nat → Nat
  | 0 => 0
  | i + 1 => if isBlankAt text i then extendStart text i else i + 1

/-- `start_offset`, html_formatter.rs 17-31. -/
def startOffset (text : Str) (i : Nat) : Nat :=
  let x := extendStart text i
  if x = 0 ∨ isEolAt text (x - 1) then x else if x < i then x + 1 else i

/-- `extended_end`, html_formatter.rs 35-38 (`fuel` is the number of bytes behind `i`). -/
def extendEnd (text : Str) : Nat → Nat → Nat
  | 0, i => i
  | fuel + 1, i => if isBlankAt text i then extendEnd text fuel (i + 1) else i

/-- `end_offset`, html_formatter.rs 34-41. -/
def endOffset (text : Str) (i : Nat) : Nat :=
  let x := extendEnd text (text.length - i) i
  if x = text.length ∨ isEolAt text x then x else i

/-- The range of the edit, html_formatter.rs 42-60. -/
def editRange (d : TextDoc) (s e : Nat) : R Range := do
  let p ← subU s 1
  if (sliceStr d.text p s).toOption = some [10] then
    .ok ⟨⟨(d.posAt s).line + 1, 0⟩, d.posAt e⟩
  else .ok ⟨d.posAt s, d.posAt e⟩

/-- The regex `.*[<][^>]*$` matches: the last angle bracket is a `<`, html_formatter.rs 65. -/
def insideTag (s : Str) : Bool := s.reverse.find? (fun b => b == 60 || b == 62) == some 60

/-- The loop of `compute_indent_level`, html_formatter.rs 125-135 (`fuel` is the number of bytes
behind `i`). -/
def indentChars (tab : Nat) : Nat → Str → R Nat
  | 0, _ => .ok 0
  | _ + 1, [] => .error .unwrap
  | fuel + 1, b :: t =>
    if b = 32 then do
      let n ← indentChars tab fuel t
      .ok (1 + n)
    else if b = 9 then do
      let n ← indentChars tab fuel t
      .ok (tab + n)
    else .ok 0

/-- `compute_indent_level`, html_formatter.rs 119-137. -/
def computeIndentLevel (content : Str) (i tab : Nat) : R Nat := do
  let k ← subU i 1
  let n ← indentChars tab (content.length - i) (content.drop k)
  if tab = 0 then .error .divZero else .ok (n / tab)

/-- `split("\n")` and `join` with an indentation. -/
def reindent (indent s : Str) : Str := s.flatMap (fun b => if b = 10 then [10] ++ indent else [b])

/-- The initial indentation of the result, html_formatter.rs 89-110. -/
def indentResult (o : FormatOptions) (level : Nat) (atStart : Bool) (s : Str) : Str :=
  if level > 0 then
    (if atStart then indentText o level else []) ++
    (if s.getLast? = some 10 then reindent (indentText o level) s.dropLast ++ [10]
      else reindent (indentText o level) s)
  else s

/-- `initial_indent_level`, html_formatter.rs 74-79. -/
def initialLevel (o : FormatOptions) (d : TextDoc) (s : Nat) (range : Range) : R Nat :=
  if s ≠ 0 then computeIndentLevel d.text (d.offsetAt ⟨range.start.line, 0⟩) o.tabSize else .ok 0

/-- Formatting of a range, html_formatter.rs 16-80, 87-112. -/
def formatRange (u : Uni) (cs : Bool) (void : List Str) (o : FormatOptions) (d : TextDoc) (r : Range) :
    R (List TextEdit) := do
  let s := startOffset d.text (d.offsetAt r.start)
  let e := endOffset d.text (d.offsetAt r.stop)
  let range ← editRange d s e
  let firstHalf ← sliceStr d.text 0 s
  let value ← sliceStr d.text s e
  if insideTag firstHalf then .ok [⟨range, value⟩]
  else do
    let level ← initialLevel o d s range
    let result ← htmlBeautify u cs void o (trimLeftStr value)
    .ok [⟨range, indentResult o level (range.start.character = 0) result⟩]

/-- `format`, html_formatter.rs 7-113. -/
def format (u : Uni) (cs : Bool) (void : List Str) (o : FormatOptions) (d : TextDoc) :
    Option Range → R (List TextEdit)
  | some r => formatRange u cs void o d r
  | none => do
    let result ← htmlBeautify u cs void o (trimLeftStr d.text)
    .ok [⟨⟨⟨0, 0⟩, d.posAt d.text.length⟩, result⟩]

end Html
