import Verif.Spec.Links
import Verif.Spec.Moved

/-! # Links in a document with more text in front (C101) -/

namespace Html.Spec

/-- The target is the document itself or a position in it. -/
def InDocument (e : LinkEnv) (t : Option Str) : Prop :=
  t = some e.uri ∨ ∃ p, t = some (slashes (positionUri e.uri p))

/-- The same links: the ranges are moved by `f`, and the targets are the same, except that links into the document may lead to
another place in it. -/
def SameLinks (e : LinkEnv) (f : Range → Range) : List DocLink → List DocLink → Prop
  | [], [] => True
  | x :: xs, y :: ys =>
    (y.range = f x.range ∧ (y.target = x.target ∨ (InDocument e x.target ∧ InDocument e y.target))) ∧ SameLinks e f xs ys
  | _, _ => False

end Html.Spec
