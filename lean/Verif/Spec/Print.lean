import Verif.Spec.Tree

/-!
# Abstract documents, their printed form, and the document they should parse to
-/

namespace Html.Spec
open Html

instance : DecidablePred Space := fun b =>
  inferInstanceAs (Decidable (b = 32 ∨ b = 9 ∨ b = 10 ∨ b = 12 ∨ b = 13))
instance : DecidablePred Spaces := fun w => inferInstanceAs (Decidable (∀ b ∈ w, Space b))

/-- An attribute as it is written in a start tag: the white space in front of it, its name, and its
value with the quotes, if there are any. -/
structure AttrText where
  gap : Str
  name : Str
  value : Option Str

/-- `name` or `name=value`, behind white space. -/
def AttrText.print (a : AttrText) : Str :=
  a.gap ++ a.name ++ match a.value with
    | none => []
    | some w => b!"=" ++ w

/-- A start tag as it is written, up to its closing bracket: the name, the attributes, and the white
space behind them. -/
structure TagText where
  name : Str
  attrs : List AttrText
  gap : Str

/-- The attributes of a start tag. -/
def printAttrs : List AttrText → Str
  | [] => []
  | a :: l => a.print ++ printAttrs l

/-- `<name attrs` -/
def TagText.print (t : TagText) : Str := b!"<" ++ t.name ++ printAttrs t.attrs ++ t.gap

/-- An abstract piece of a document. -/
inductive Item
  | text (t : Str)
  | comment (body : Str)
  /-- `<!doctype body>` -/
  | doctype (word body : Str)
  /-- `<name attrs>kids</name>`, with white space in the end tag -/
  | elem (tag : TagText) (kids : List Item) (gap : Str)
  /-- `<name attrs>` (a void element) -/
  | void (tag : TagText)
  /-- `<name attrs/>` -/
  | selfClosed (tag : TagText)

mutual
/-- The text of an item. -/
def Item.print : Item → Str
  | .text t => t
  | .comment b => b!"<!--" ++ b ++ b!"-->"
  | .doctype w b => b!"<!" ++ w ++ b ++ b!">"
  | .elem tag kids gap => tag.print ++ b!">" ++ printAll kids ++ (b!"</" ++ tag.name ++ gap ++ b!">")
  | .void tag => tag.print ++ b!">"
  | .selfClosed tag => tag.print ++ b!"/>"
/-- The text of a list of items. -/
def printAll : List Item → Str
  | [] => []
  | i :: l => i.print ++ printAll l
end

/-- The attributes that are expected from `printAttrs attrs` at offset `i`. -/
def attrNodes (i : Nat) : List AttrText → List (Str × Attr)
  | [] => []
  | a :: l => (a.name, ⟨a.value, i + a.gap.length⟩) :: attrNodes (i + a.print.length) l

/-- The attributes that are expected from a start tag printed at offset `i`. -/
def TagText.nodes (t : TagText) (i : Nat) : List (Str × Attr) := attrNodes (i + 1 + t.name.length) t.attrs

mutual
/-- The nodes that are expected from an item printed at offset `i`. -/
def Item.nodes (i : Nat) : Item → List Node
  | .text _ => []
  | .comment _ => []
  | .doctype _ _ => []
  | .elem tag kids gap =>
    let ste := i + tag.print.length + 1
    let ets := ste + (printAll kids).length
    [⟨some tag.name, i, ets + tag.name.length + gap.length + 3, nodesAll ste kids, true, some ste, some ets,
      tag.nodes i⟩]
  | .void tag =>
    let ste := i + tag.print.length + 1
    [⟨some tag.name, i, ste, [], true, some ste, none, tag.nodes i⟩]
  | .selfClosed tag =>
    let ste := i + tag.print.length + 2
    [⟨some tag.name, i, ste, [], true, some ste, none, tag.nodes i⟩]
/-- The nodes that are expected from a list of items printed at offset `i`. -/
def nodesAll (i : Nat) : List Item → List Node
  | [] => []
  | it :: l => it.nodes i ++ nodesAll (i + it.print.length) l
end

/-- Element names: an ASCII letter, digit, `_` or `:`, then also `-` and `.`. -/
def TagName (name : Str) : Prop := (∃ b t, name = b :: t ∧ NameStartByte b) ∧ ∀ b ∈ name, NameByte b

/-- Element names other than those of the raw text elements `script` and `style`. -/
def LegalName (name : Str) : Prop :=
  TagName name ∧ asciiLower name ≠ b!"script" ∧ asciiLower name ≠ b!"style"

/-- A value in quotes, `"` or `'`, that do not occur inside. -/
def Quoted (w : Str) : Prop := ∃ q v, (q = 34 ∨ q = 39) ∧ q ∉ v ∧ w = [q] ++ v ++ [q]

/-- A value without quotes: ASCII, no white space, none of ``"'`=<>``. -/
def Bare (w : Str) : Prop :=
  w ≠ [] ∧ ∀ b ∈ w, b < 128 ∧ ¬ (9 ≤ b ∧ b ≤ 13) ∧ b ≠ 32 ∧ b ≠ 34 ∧ b ≠ 39 ∧ b ≠ 96 ∧ b ≠ 61 ∧ b ≠ 60 ∧ b ≠ 62

/-- What can be behind the `=` of an attribute: a value in quotes, a value without quotes, or nothing. -/
def ValueText (w : Str) : Prop := Quoted w ∨ Bare w ∨ w = []

/-- Attribute names: printable ASCII without quotes, `< > / =`, behind white space; values with or without quotes. -/
def AttrText.Legal (a : AttrText) : Prop :=
  a.gap ≠ [] ∧ Spaces a.gap ∧ AttributeName a.name ∧ isAscii a.name ∧ ∀ w, a.value = some w → ValueText w

/-- All attributes are legal and no name occurs twice. -/
def LegalAttrs (attrs : List AttrText) : Prop := (∀ a ∈ attrs, a.Legal) ∧ (attrs.map (·.name)).Nodup

/-- The attributes of a start tag are legal, and there is only white space behind them. -/
def TagText.Legal (t : TagText) : Prop := LegalAttrs t.attrs ∧ Spaces t.gap

/-- The value is there, and it is not empty. -/
def ValueWritten (v : Option Str) : Prop := ∃ w, v = some w ∧ w ≠ [] ∧ w ≠ b!"\"\"" ∧ w ≠ b!"''"

/-- A `script` with a type, the content of which is read as HTML. -/
def TypedScript (t : TagText) : Prop :=
  t.name = b!"script" ∧ (∃ a ∈ t.attrs, a.name = b!"type") ∧
  ∀ a ∈ t.attrs, asciiLower a.name = b!"type" → ValueWritten a.value

/-- A `style`, or a `script` without a type, the content of which is one text up to the end tag. -/
def RawElement (t : TagText) (kids : List Item) : Prop :=
  ∃ body, kids = [.text body] ∧
    ((t.name = b!"style" ∧ ¬ Occurs b!"</style" body) ∨
     (t.name = b!"script" ∧ (∀ a ∈ t.attrs, asciiLower a.name = b!"type" → ¬ ValueWritten a.value) ∧
        ¬ Occurs b!"<!--" body ∧ ¬ Occurs b!"</script" body))

/-- A slash behind the attributes is not part of the last value: there is white space in front of it,
or the last value has quotes. -/
def SlashFree (t : TagText) : Prop :=
  t.gap ≠ [] ∨ ∀ a, t.attrs.getLast? = some a → ∀ w, a.value = some w → Quoted w

mutual
/-- The items that can be printed faithfully: text without `<`, comments without `-->`,
legal names and attributes, and void names exactly on the items without content. -/
def Item.Legal (void : List Str) : Item → Prop
  | .text t => 60 ∉ t
  | .comment b => ¬ Occurs b!"-->" b
  | .doctype w b => asciiLower w = b!"doctype" ∧ 62 ∉ b
  | .elem tag kids gap =>
    tag.Legal ∧ Spaces gap ∧ tag.name ∉ void ∧
      (((LegalName tag.name ∨ TypedScript tag) ∧ AllLegal void kids) ∨ RawElement tag kids)
  | .void tag => tag.Legal ∧ LegalName tag.name ∧ tag.name ∈ void
  | .selfClosed tag => tag.Legal ∧ TagName tag.name ∧ SlashFree tag
/-- All items of a list are legal. -/
def AllLegal (void : List Str) : List Item → Prop
  | [] => True
  | i :: l => i.Legal void ∧ AllLegal void l
end

end Html.Spec
