import Verif.Spec.LetterCase
import Verif.Model.TagServices
import Verif.Model.Symbols

/-!
# Documents that differ in the case of ASCII letters only
-/

namespace Html.Spec
open Html

/-- The texts are equal up to the case of ASCII letters, with `<script`, `</script` and `</style` spelled alike, and
positions mean the same offsets in both. -/
structure SameButCase (d d' : TextDoc) : Prop where
  letters : SameLetters d.text d'.text
  raw : SameRawTags d.text d'.text
  pos : d'.posAt = d.posAt
  offset : d'.offsetAt = d.offsetAt

mutual
/-- A symbol without its name. -/
def Symbol.ranges : Symbol → Symbol
  | .mk _ range selection children => .mk [] range selection (Symbol.rangesAll children)
/-- The same for a list of symbols. -/
def Symbol.rangesAll : List Symbol → List Symbol
  | [] => []
  | s :: l => Symbol.ranges s :: Symbol.rangesAll l
end

end Html.Spec
