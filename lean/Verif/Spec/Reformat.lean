import Verif.Spec.Layout

/-!
# Formatting a formatted document
-/

namespace Html.Spec
open Html

/-- Formatting a document with the text `s` gives the text `t`. -/
def Formatted (u : Uni) (cs : Bool) (void : List Str) (o : FormatOptions) (s t : Str) : Prop :=
  ∃ (d : TextDoc) (e : TextEdit), d.text = s ∧ format u cs void o d none = .ok [e] ∧ e.newText = t

/-- The text is blank, or there is a line break in it. -/
def Broken (t : Str) : Prop := 10 ∈ t ∨ words t = []

mutual
/-- An element at depth `k` is settled: it has no children, or it takes several lines and the texts in front of,
between and behind its children are blank or have a line break; and so on for its children. -/
def NodeSettled (o : FormatOptions) (src : Str) (k : Nat) : Node → Prop
  | ⟨tag, start, stop, children, closed, ste, ets, attrs⟩ =>
    let n : Node := ⟨tag, start, stop, children, closed, ste, ets, attrs⟩
    ∀ t s e, tag = some t → ste = some s → ets = some e → children ≠ [] →
      Wraps o k n t (bytesIn src s e) ∧ KidsSettled o src (k + 1) s e children
/-- The children at depth `k` in the source between `prev` and `stop` are settled. -/
def KidsSettled (o : FormatOptions) (src : Str) (k prev stop : Nat) : List Node → Prop
  | [] => Broken (bytesIn src prev stop)
  | c :: l => Broken (bytesIn src prev c.start) ∧ NodeSettled o src k c ∧ KidsSettled o src k c.stop stop l
end

/-- What an element is, regardless of where it is written. -/
inductive Shape
  | mk (tag : Option Str) (attrs : List (Str × Option Str)) (hasEndTag : Bool) (children : List Shape)

mutual
/-- The shape of an element: its name, its attributes, whether it has an end tag, and its children. -/
def shape : Node → Shape
  | ⟨tag, _, _, children, _, _, ets, attrs⟩ => .mk tag (attrs.map fun x => (x.1, x.2.value)) ets.isSome (shapes children)
/-- The shapes of some elements. -/
def shapes : List Node → List Shape
  | [] => []
  | n :: l => shape n :: shapes l
end

end Html.Spec
