import Verif.Spec.Moved
import Verif.Spec.Tree
import Verif.Model.Completion

/-! # Proposals in a document with more text in front (C100) -/

namespace Html.Spec

/-- The edit of the proposal is made at the moved place. -/
def CompItem.after (e : Pos) (i : CompItem) : CompItem := { i with textEdit := i.textEdit.map (TextEdit.after e) }

/-- No element has an attribute whose name begins with `data-`. -/
def NoData (roots : List Node) : Prop :=
  ∀ n, InForest roots n → ∀ a ∈ n.attributes, (b!"data-").isPrefixOf a.1 = false

end Html.Spec
