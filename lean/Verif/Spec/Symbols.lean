import Verif.Spec.Tree
import Verif.Spec.Position
import Verif.Model.Symbols

/-!
# Specification vocabulary for symbols
-/

namespace Html.Spec
open Html

/-- The node at an address: the first number selects a root, each next one a child. -/
def nodeAt (l : List Node) : List Nat → Option Node
  | [] => none
  | [i] => l[i]?
  | i :: j :: p => l[i]?.bind fun n => nodeAt n.children (j :: p)

/-- The symbol at an address. -/
def symbolAt (l : List Symbol) : List Nat → Option Symbol
  | [] => none
  | [i] => l[i]?
  | i :: j :: p => l[i]?.bind fun n => symbolAt n.children (j :: p)

/-- `ws` are the maximal pieces of `s` without white space, in order. -/
inductive Words : Str → List Str → Prop
  | done {s : Str} (h : Spaces s) : Words s []
  | word {sp w r : Str} {ws : List Str} (h : Spaces sp) (hne : w ≠ []) (hw : ∀ b ∈ w, ¬ Space b)
      (hr : ∀ b, r.head? = some b → Space b) (h' : Words r ws) : Words (sp ++ w ++ r) (w :: ws)

/-- The text without quotation marks. -/
def noQuotes (s : Str) : Str := s.filter (fun b => b ≠ 34 ∧ b ≠ 39)

/-- The value of the attribute called `k`: there is such an attribute, and it has this value. -/
def HasValue (n : Node) (k v : Str) : Prop := ∃ a, (k, a) ∈ n.attributes ∧ a.value = some v

/-- `name` is what a node is called: its tag, `#` and its id, and `.` and the name for each of
its classes; `?` if it has no tag. -/
def SymbolName (n : Node) (name : Str) : Prop :=
  (n.tag = none ∧ name = b!"?") ∨
  ∃ tag idPart classPart, n.tag = some tag ∧ name = tag ++ idPart ++ classPart ∧
    ((∃ v, HasValue n b!"id" v ∧ idPart = b!"#" ++ noQuotes v) ∨
      ((∀ v, ¬ HasValue n b!"id" v) ∧ idPart = [])) ∧
    ((∃ v ws, HasValue n b!"class" v ∧ Words (noQuotes v) ws ∧
        classPart = (ws.map (fun w => b!"." ++ w)).flatten) ∨
      ((∀ v, ¬ HasValue n b!"class" v) ∧ classPart = []))

/-- The range `inner` lies in the range `outer`. -/
def RangeInside (inner outer : Range) : Prop := PosLe outer.start inner.start ∧ PosLe inner.stop outer.stop

end Html.Spec
