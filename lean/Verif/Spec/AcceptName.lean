import Verif.Spec.AcceptValue

/-!
# A start tag that gets another attribute
-/

namespace Html.Spec
open Html

/-- A start tag with a place for an attribute. -/
structure TagSlot where
  name : Str
  before : List AttrText
  /-- the white space in front of the place -/
  gap : Str
  after : List AttrText
  /-- the white space behind the attributes -/
  back : Str

/-- The text of the tag in front of the place. -/
def TagSlot.front (t : TagSlot) : Str := b!"<" ++ t.name ++ printAttrs t.before ++ t.gap

/-- The text of the tag behind the place. -/
def TagSlot.rest (t : TagSlot) : Str := printAttrs t.after ++ t.back

/-- The start tag with nothing at the place. -/
def TagSlot.empty (t : TagSlot) : TagText :=
  match t.after with
  | [] => ⟨t.name, t.before, t.gap ++ t.back⟩
  | a :: l => ⟨t.name, t.before ++ { a with gap := t.gap ++ a.gap } :: l, t.back⟩

/-- The start tag with an attribute at the place. -/
def TagSlot.fill (t : TagSlot) (key : Str) (value : Option Str) : TagText :=
  ⟨t.name, t.before ++ ⟨t.gap, key, value⟩ :: t.after, t.back⟩

/-- The names of the attributes. -/
def TagSlot.names (t : TagSlot) : List Str := (t.before ++ t.after).map (·.name)

/-- The attributes are legal, no name occurs twice, and there is white space on both sides of the place. -/
def TagSlot.Legal (t : TagSlot) : Prop :=
  LegalAttrs (t.before ++ t.after) ∧ t.gap ≠ [] ∧ Spaces t.gap ∧ Spaces t.back

/-- `=` and the value, if there is one. -/
def valueText : Option Str → Str
  | none => []
  | some v => b!"=" ++ v

/-- What accepting the attribute `a` adds behind its name, if no value follows yet. -/
def addedText (e : CompEnv) (a : AttributeData) : Str := if a.valueSet = some b!"v" then [] else assignText e.settings

/-- At the place is nothing, and the cursor is there, or an attribute `w`, and the cursor is in its name or directly
behind it.  The name is not the one of another attribute.  `p` is the offset of the place. -/
def TagSlot.Cursor (t : TagSlot) (p o : Nat) (w : Str) (value : Option Str) : Prop :=
  (w = [] ∧ value = none ∧ o = p) ∨
  (AttributeName w ∧ isAscii w ∧ w ∉ t.names ∧ (∀ v, value = some v → ValueText v) ∧ p < o ∧ o ≤ p + w.length)

/-- The text of the tag with `w` and a value at the place. -/
def TagSlot.text (t : TagSlot) (w : Str) (value : Option Str) : Str := t.front ++ w ++ valueText value ++ t.rest

end Html.Spec
