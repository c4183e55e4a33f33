import Verif.Spec.Tree
import Verif.Spec.Accept

/-!
# Specification vocabulary for the content of `script` and `style` elements
-/

namespace Html.Spec
open Html

/-- How a script is read: as it is, as a comment (after `<!--`), or as a script within a comment (after `<script`
in a comment). -/
inductive ScriptMode
  | plain | comment | nested
deriving DecidableEq, Repr

/-- The mode behind `<!--`. -/
def ScriptMode.opened : ScriptMode → ScriptMode
  | .plain => .comment
  | m => m

/-- The mode behind `<script`. -/
def ScriptMode.entered : ScriptMode → ScriptMode
  | .comment => .nested
  | m => m

/-- One of the texts that matter within a script. -/
def ScriptMark (text : Str) : Prop :=
  ∃ m ∈ [b!"<!--", b!"-->", b!"<script", b!"</script"], m <+: text

/-- A text read from left to right as the content of a script, with the modes before and behind it. An end tag
counts as content only in a script within a comment. -/
inductive Reads : ScriptMode → Str → ScriptMode → Prop
  | nil (m : ScriptMode) : Reads m [] m
  | opened {m m' : ScriptMode} {r : Str} : Reads m.opened r m' → Reads m (b!"<!--" ++ r) m'
  | closed {m m' : ScriptMode} {r : Str} : Reads .plain r m' → Reads m (b!"-->" ++ r) m'
  | entered {m m' : ScriptMode} {r : Str} : Reads m.entered r m' → Reads m (b!"<script" ++ r) m'
  | left {m' : ScriptMode} {r : Str} : Reads .comment r m' → Reads .nested (b!"</script" ++ r) m'
  | other {m m' : ScriptMode} {b : Nat} {r : Str} :
      ¬ ScriptMark (b :: r) → Reads m r m' → Reads m (b :: r) m'

/-- The content of a script that begins at `o` ends at `e`: at an end tag that is not in a script within a comment, or at
the end of the text. -/
def ScriptBody (src : Str) (o e : Nat) : Prop :=
  o ≤ e ∧ e ≤ src.length ∧ ∃ m, Reads .plain (bytesIn src o e) m ∧
    (e = src.length ∨ (m ≠ .nested ∧ At src e b!"</script"))

/-- The content of a style sheet that begins at `o` ends at `e`: at the first `</style`, or at the end of the text. -/
def StyleBody (src : Str) (o e : Nat) : Prop :=
  o ≤ e ∧ e ≤ src.length ∧ (∀ i, o ≤ i → i < e → ¬ At src i b!"</style") ∧
    (e = src.length ∨ At src e b!"</style")

/-! ### Which elements have such content -/

/-- The name in the tokens of a start tag, as it is compared. -/
def tagNameIn (u : Uni) (caseSensitive : Bool) (src : Str) (tag : List Tok) : Option Str :=
  (tag.find? (·.type = .StartTag)).map (fun t => comparedName u caseSensitive (text src t))

/-- Reading the tokens of a start tag from left to right: whether the last attribute is `type`, and whether the last
value of `type` is not empty. -/
def typeStep (u : Uni) (caseSensitive : Bool) (src : Str) (s : Bool × Bool) (t : Tok) : Bool × Bool :=
  match t.type with
  | .AttributeName => (comparedName u caseSensitive (text src t) = b!"type", s.2)
  | .AttributeValue => if s.1 then (true, text src t ≠ b!"\"\"" ∧ text src t ≠ b!"''") else s
  | _ => s

/-- The start tag with these tokens gives `type` a value that is not empty. -/
def typeGiven (u : Uni) (caseSensitive : Bool) (src : Str) (tag : List Tok) : Bool :=
  (tag.foldl (typeStep u caseSensitive src) (false, false)).2

/-- The kind of content behind a start tag with these tokens, if it is not HTML: that of scripts without a type and
that of style sheets. -/
def rawContent (u : Uni) (caseSensitive : Bool) (src : Str) (tag : List Tok) : Option TT :=
  if tagNameIn u caseSensitive src tag = some b!"script" then
    if typeGiven u caseSensitive src tag then none else some .Script
  else if tagNameIn u caseSensitive src tag = some b!"style" then some .Styles
  else none

/-- The tokens end with a start tag (without its brackets: `tag`) that is closed by a `>`. -/
def ClosesTag (ts tag : List Tok) : Prop :=
  ∃ a op cl, ts = a ++ op :: (tag ++ [cl]) ∧ op.type = .StartTagOpen ∧ (∀ t ∈ tag, t.type ≠ .StartTagOpen) ∧
    cl.type = .StartTagClose ∧ cl.offset < cl.stop

/-- The content of the kind `k` that begins at `o` ends at `e`. -/
def RawBody (k : TT) (src : Str) (o e : Nat) : Prop :=
  (k = .Script ∧ ScriptBody src o e) ∨ (k = .Styles ∧ StyleBody src o e)

/-- The tokens begin with one of type `k` from `o` to `e`; if that would be empty, they do not begin with a script or
style sheet. -/
def BeginsWith (k : TT) (o e : Nat) (ts : List Tok) : Prop :=
  if o < e then ∃ t ts', ts = t :: ts' ∧ t.type = k ∧ t.offset = o ∧ t.stop = e
  else ∀ t ∈ ts.head?, t.type ≠ .Script ∧ t.type ≠ .Styles

end Html.Spec
