import Verif.Spec.Position
import Verif.Spec.Query
import Verif.Model.TextDocument
import Verif.Model.Document

/-! # Documents that begin alike (C94) -/

namespace Html.Spec

/-- Two documents that both begin with the text `a`, and in which the offsets in `a` have the same positions. -/
structure BeginAlike (a : Str) (d d' : TextDoc) : Prop where
  left : ∃ x, d.text = a ++ x
  right : ∃ y, d'.text = a ++ y
  pos : ∀ o, o ≤ a.length → d'.posAt o = d.posAt o

/-- All of the element is in the text `a`: it is closed, and the `>` it ends with is there. -/
structure AllInFront (a : Str) (n : Node) : Prop where
  closed : n.closed = true
  stop : n.stop ≤ a.length
  bracket : a[n.stop - 1]? = some 62

/-- If the element has an end tag then as many bytes as its name has are left in `a` for the name in the end tag.  (Unless
there are letters whose lower case has another length, this is always so.) -/
def NameFits (a : Str) (n : Node) : Prop := ∀ e, n.endTagStart = some e → e + 2 + nameLen n ≤ a.length

end Html.Spec
