import Verif.Spec.Print
import Verif.Model.TagServices

/-!
# Renaming an element of an abstract document, and applying text edits
-/

namespace Html.Spec
open Html

/-- The tag with the new name, if it is the one to be renamed. -/
def TagText.rename (tag : TagText) (this : Bool) (new : Str) : TagText :=
  { tag with name := if this then new else tag.name }

mutual
/-- The item printed at offset `i`, with the element that starts at offset `o` called `new`. -/
def Item.rename (o : Nat) (new : Str) (i : Nat) : Item → Item
  | .text t => .text t
  | .comment b => .comment b
  | .doctype w b => .doctype w b
  | .elem tag kids gap =>
    .elem (tag.rename (i = o) new) (renameAll o new (i + tag.print.length + 1) kids) gap
  | .void tag => .void (tag.rename (i = o) new)
  | .selfClosed tag => .selfClosed (tag.rename (i = o) new)
/-- The items printed at offset `i`, with the element that starts at offset `o` called `new`. -/
def renameAll (o : Nat) (new : Str) (i : Nat) : List Item → List Item
  | [] => []
  | it :: l => it.rename o new i :: renameAll o new (i + it.print.length) l
end

/-- The text with the edits applied: each range is replaced by its new text.  The edits are in
text order and do not overlap; the last one is applied first, so that the
offsets of the others stay valid. -/
def applyEdits (d : TextDoc) : List TextEdit → Str
  | [] => d.text
  | e :: es => (applyEdits d es).take (d.offsetAt e.range.start) ++ e.newText ++
      (applyEdits d es).drop (d.offsetAt e.range.stop)

end Html.Spec
