import Verif.Model.SelectionRange
import Verif.Spec.Position
import Verif.Spec.Query
import Verif.Spec.Tree

/-!
# Specification vocabulary for selection ranges
-/

namespace Html.Spec
open Html

/-- The ranges of a chain, innermost first. -/
def chainRanges : SelRange → List Range
  | .top r => [r]
  | .inner r p => r :: chainRanges p

/-- The range `b` contains the range `a` and is not the same. -/
def StrictlyInside (a b : Range) : Prop :=
  PosLe b.start a.start ∧ PosLe a.stop b.stop ∧ a ≠ b

/-- The position lies in the range (both ends included). -/
def InRange (p : Pos) (r : Range) : Prop := PosLe r.start p ∧ PosLe p r.stop

/-- The position is one the document has (not behind the end of a line). -/
def Exact (d : TextDoc) (p : Pos) : Prop := d.posAt (d.offsetAt p) = p

/-- Offsets are in the order of their positions. -/
def Ordered (d : TextDoc) : Prop := ∀ p q, PosLe p q → d.offsetAt p ≤ d.offsetAt q

/-- An element that consists of its start tag only (void, self-closing or cut off). -/
def OnlyStartTag (n : Node) : Prop := n.startTagEnd = some n.stop ∧ n.endTagStart = none

/-- The attributes of the element are looked at for a cursor: it consists of its start tag, or it has an end tag and
the cursor is in the start tag. -/
def AttrsWanted (n : Node) (o : Nat) : Prop :=
  OnlyStartTag n ∨ ∃ ste ets, n.startTagEnd = some ste ∧ n.endTagStart = some ets ∧ n.start < o ∧ o < ste

/-- The offset is on one of the brackets of such an element: before the `<`, or between the
`/` and the `>` that close it. -/
def OnBracket (src : Str) (n : Node) (o : Nat) : Prop :=
  o = n.start ∨ (At src (n.stop - 2) b!"/>" ∧ o = n.stop - 1)

/-- An unquoted attribute value that starts, with its name, before the offset takes the `/` of the `/>`. -/
def SlashBehind (src : Str) (n : Node) (o : Nat) : Prop :=
  At src (n.stop - 2) b!"/>" ∧ SlashValue src (n.attributes.filter (fun x => x.2.offset ≤ o)) (n.stop - 1)

/-- The chain begins, innermost first, with these ranges of offsets. -/
def Begins (d : TextDoc) (s : SelRange) (l : List (Nat × Nat)) : Prop :=
  l.map (fun r => (⟨d.posAt r.1, d.posAt r.2⟩ : Range)) <+: chainRanges s

/-- The value is written in quotes, and the offset in it is not before or behind both of them. -/
def BetweenQuotes (v : Str) (i : Nat) : Prop :=
  ∃ q y, (q = 34 ∨ q = 39) ∧ v = q :: y ++ [q] ∧ 1 ≤ i ∧ i ≤ y.length + 1

/-- The offset is neither before the first nor behind the last element. -/
def Among (roots : List Node) (o : Nat) : Prop :=
  roots = [] ∨ ∃ a b, a ∈ roots ∧ b ∈ roots ∧ a.start ≤ o ∧ o ≤ b.stop

/-- In the start tag of the element, behind `<` and in front of the last bracket, or the text between `</` and `>`. -/
def InTags (m : Node) (r : Nat × Nat) : Prop :=
  (∃ e, m.startTagEnd = some e ∧ m.start < r.1 ∧ r.2 < e) ∨ (∃ a, m.endTagStart = some a ∧ r = (a + 2, m.stop - 1))

/-- All elements of the document, an element around the offset or its content, or (for the innermost one) a part of
its tags. -/
def RangeAround (roots : List Node) (o : Nat) (r : Nat × Nat) : Prop :=
  (∃ a b, roots.head? = some a ∧ roots.getLast? = some b ∧ r = (a.start, b.stop)) ∨
  (∃ m, InForest roots m ∧ Covers m o ∧
    (r = (m.start, m.stop) ∨ (m.startTagEnd = some r.1 ∧ m.endTagStart = some r.2))) ∨
  (∃ m, InForest roots m ∧ Covers m o ∧ (∀ k ∈ m.children, ¬ Covers k o) ∧ InTags m r)

end Html.Spec
