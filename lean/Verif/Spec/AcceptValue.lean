import Verif.Spec.Retag
import Verif.Spec.Rename
import Verif.Spec.Completion

/-!
# A start tag in which the value of one attribute changes
-/

namespace Html.Spec
open Html

/-- A start tag with an attribute `key`, the value of which is left open. -/
structure TagHole where
  name : Str
  before : List AttrText
  /-- the white space in front of the attribute -/
  gap : Str
  key : Str
  after : List AttrText
  /-- the white space behind the attributes -/
  back : Str

/-- The start tag with a value (written with its quotes, if it has any). -/
def TagHole.fill (t : TagHole) (v : Str) : TagText := ⟨t.name, t.before ++ ⟨t.gap, t.key, some v⟩ :: t.after, t.back⟩

/-- The text of the tag up to the `=` in front of the value. -/
def TagHole.front (t : TagHole) : Str := b!"<" ++ t.name ++ printAttrs t.before ++ t.gap ++ t.key ++ b!"="

/-- `x` is the word of `a ++ x ++ b` around the offset `o`. -/
def WordOf (a x b : Str) (o : Nat) : Prop :=
  a.length ≤ o ∧ o ≤ a.length + x.length ∧ (∀ c ∈ x, ¬ BlankByte c) ∧
  (∀ c, a.getLast? = some c → BlankByte c) ∧ (∀ c, b.head? = some c → BlankByte c)

end Html.Spec
