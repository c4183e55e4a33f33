import Verif.Spec.Query
import Verif.Spec.Hover
import Verif.Model.Completion

/-! # Specification vocabulary for completion -/

namespace Html.Spec
open Html

/-- No tag that begins in front of `o` is cut short there by another `<` (the scanner then reports an
empty closing token). -/
def NoCut (ts : List Tok) (o : Nat) : Prop := ∀ t ∈ ts, t.stop < o → t.offset < t.stop

/-- The cursor is behind the `=` that directly follows the attribute name `t` of a start tag, and no
value begins at the cursor. -/
def AwaitsValue (src : Str) (t : Tok) (o : Nat) : Prop :=
  t.type = .AttributeName ∧ t.stop + 1 = o ∧ src[t.stop]? = some 61 ∧
  ∀ b, src[o]? = some b → Space b ∨ b = 62

/-- The text offered for the quotes that are set: double quotes without settings. -/
def quotesText : Option CompletionConfig → Option Str
  | none => some b!"\"$1\""
  | some c =>
    match c.quotes with
    | .double => some b!"\"$1\""
    | .single => some b!"'$1'"
    | .none => none

/-- At `o` the element has no end tag, or it comes later. -/
def Unclosed (o : Nat) (m : Node) : Prop :=
  m.closed = false ∨ ∃ es, m.endTagStart = some es ∧ o < es

/-- The element is open at `o`, inside of the end tag that begins at `a`: it begins in front of the end
tag, it reaches up to it, and it is unclosed. -/
def OpenHere (a o : Nat) (m : Node) : Prop :=
  m.start < a ∧ a ≤ m.stop ∧ Unclosed o m

/-! ### Proposals -/

/-- The provider is asked: it knows the language and is not switched off. -/
def Enabled (e : CompEnv) (p : Provider) : Prop :=
  p.isApplicable e.languageId = true ∧ ∀ c, e.settings = some c → c.provider.find p.id ≠ some false

instance (e : CompEnv) : DecidablePred (Enabled e) := fun p =>
  match h : e.settings with
  | none => decidable_of_iff (p.isApplicable e.languageId = true) ⟨fun h1 => ⟨h1, by simp [h]⟩, fun h1 => h1.1⟩
  | some c =>
    decidable_of_iff (p.isApplicable e.languageId = true ∧ c.provider.find p.id ≠ some false)
      ⟨fun h1 => ⟨h1.1, fun _ hc => by rw [h] at hc; cases hc; exact h1.2⟩, fun h1 => ⟨h1.1, h1.2 c h⟩⟩

/-- An attribute that a provider proposes for the element (`o` is the cursor). -/
def Offers (e : CompEnv) (tag : Option Str) (o : Nat) (a : AttributeData) : Prop :=
  ∃ p ∈ e.providers, Enabled e p ∧ ∃ t, tag = some t ∧ a ∈ p.provideAttributes t o

/-- The element has the attribute. -/
def HasAttr (n : Node) (l : Str) : Prop := l ∈ n.attributes.map (·.1)

/-- Behind white space follows `=`. -/
def EqualsFollows (src : Str) (i : Nat) : Prop := ∃ w, Spaces w ∧ At src i (w ++ b!"=")

/-- What is inserted behind the name of an attribute without a value. -/
def assignText : Option CompletionConfig → Str
  | none => b!"=\"$1\""
  | some c =>
    match c.quotes with
    | .double => b!"=\"$1\""
    | .single => b!"='$1'"
    | .none => b!"=$1"

/-- The labels of proposals. -/
def labels (l : List CompItem) : List Str := l.map (·.label)

/-- The proposals `r` of attribute names for the element `n`: `typed l` says that `l` is the name the cursor
is in, `assigned` that `=` follows.

First come the attributes that providers know for the element and that it does not have yet, then `data-`
and the attributes that begin with it and occur somewhere in the document but not here. -/
structure NameProposals (e : CompEnv) (roots : List Node) (n : Node) (o : Nat) (range : Range)
    (typed : Str → Prop) (assigned : Prop) (named data : List CompItem) : Prop where
  nodup : (labels named).Nodup
  known : ∀ l, l ∈ labels named ↔ (∃ a, Offers e n.tag o a ∧ a.name = l) ∧ (typed l ∨ ¬ HasAttr n l)
  text : ∀ i ∈ named, ∃ a s, Offers e n.tag o a ∧ i.label = a.name ∧ i.textEdit = some ⟨range, a.name ++ s⟩ ∧
    (a.valueSet = some b!"v" ∨ assigned → s = []) ∧
    (¬ (a.valueSet = some b!"v" ∨ assigned) → s = assignText e.settings)
  dataNodup : (labels data).Nodup
  dataKnown : ∀ l, l ∈ labels data ↔ l = b!"data-" ∨
    (b!"data-" <+: l ∧ (∃ k, InForest roots k ∧ HasAttr k l) ∧ ¬ HasAttr n l ∧ ¬ typed l ∧ l ∉ labels named)
  dataText : ∀ i ∈ data, i.textEdit =
    some ⟨range, if i.label = b!"data-" then b!"data-$1=\"$2\"" else i.label ++ b!"=\"$1\""⟩

/-- The tags that enabled providers know. -/
def knownTags (e : CompEnv) : List TagData := (e.providers.filter (Enabled e ·)).flatMap (·.provideTags)

/-- The labels and edits of proposals. -/
def edits (l : List CompItem) : List (Str × Option TextEdit) := l.map fun i => (i.label, i.textEdit)

/-- The end of the name that follows directly: `post` are the tokens behind the cursor. -/
def nameEnd (type : TT) (o : Nat) : List Tok → Nat
  | [] => o
  | t :: _ => if t.type = type then t.stop else o

/-- Behind white space follows `>`. -/
def GtFollows (src : Str) (i : Nat) : Prop := ∃ w, Spaces w ∧ At src i (w ++ b!">")

/-- The name of the innermost of the nested elements (outermost first) that has a name and is unclosed is `tag`;
the element is `m`. -/
def InnermostOpen (o : Nat) (nested : List Node) (m : Node) (tag : Str) : Prop :=
  ∃ outer inner, nested = outer ++ m :: inner ∧ m.tag = some tag ∧ Unclosed o m ∧
    ∀ k ∈ inner, k.tag = none ∨ ¬ Unclosed o k

/-- What is in front of an offset on its line. -/
def linePrefix (src : Str) (i : Nat) : Str := ((src.take i).reverse.takeWhile (· ≠ 10)).reverse

/-- The indentation in front of an offset, if only white space is there (characters that are not ASCII count
as white space). -/
def indentBefore (src : Str) (i : Nat) : Option Str :=
  if ∀ b ∈ linePrefix src i, (9 ≤ b ∧ b ≤ 13) ∨ b = 32 ∨ 128 ≤ b then some (linePrefix src i) else none

/-- The edit that inserts the end tag of the element `m`.  The text behind the `<` at `a` is replaced.  If the
end tag and the start tag are the first on their lines with different indentations, the indentation of the
end tag is replaced too. -/
def closeEdit (d : TextDoc) (m : Node) (tag close : Str) (a stop o : Nat) : TextEdit :=
  match indentBefore d.text m.start, indentBefore d.text a with
  | some si, some ei =>
    if si ≠ ei then ⟨⟨d.posAt (a - ei.length), d.posAt o⟩, si ++ b!"</" ++ tag ++ close⟩
    else ⟨⟨d.posAt (a + 1), d.posAt stop⟩, b!"/" ++ tag ++ close⟩
  | _, _ => ⟨⟨d.posAt (a + 1), d.posAt stop⟩, b!"/" ++ tag ++ close⟩

/-- The proposal to close the innermost of the nested elements that is unclosed: `a` is the offset of the `<`,
`stop` the end of what is replaced, `gt` says that `>` follows. -/
def ClosesInnermost (d : TextDoc) (o : Nat) (nested : List Node) (a stop : Nat) (l : List (Str × Option TextEdit)) :
    Prop :=
  ∃ m tag close, InnermostOpen o nested m tag ∧ (GtFollows d.text stop → close = []) ∧
    (¬ GtFollows d.text stop → close = b!">") ∧ l = [(b!"/" ++ tag, some (closeEdit d m tag close a stop o))]

/-- The values that enabled providers know for an attribute. -/
def knownValues (e : CompEnv) (tag attr : Str) : List ValueData :=
  (e.providers.filter (Enabled e ·)).flatMap (·.provideValues tag attr)

/-- ASCII white space. -/
def BlankByte (b : Nat) : Prop := (9 ≤ b ∧ b ≤ 13) ∨ b = 32

/-- From `a` to `b` reaches the word around `o` within `lo` and `hi` (if `o` is behind `hi`, the word ends
at `o`). -/
structure WordAround (src : Str) (lo hi o a b : Nat) : Prop where
  lo_le : lo ≤ a
  le : a ≤ o
  ge : o ≤ b
  le_hi : b ≤ max hi o
  inner : ∀ i c, a ≤ i → i < b → src[i]? = some c → ¬ BlankByte c
  left : a = lo ∨ ∃ c, src[a - 1]? = some c ∧ BlankByte c
  right : b = max hi o ∨ ∃ c, src[b]? = some c ∧ BlankByte c

/-- Where the text of a value with quotes ends: without the closing quote. -/
def contentStop (src : Str) (t : Tok) : Nat := if src[t.stop - 1]? = src[t.offset]? then t.stop - 1 else t.stop

/-- The token `y` is the last attribute name in `pre`. -/
def LastName (pre : List Tok) (y : Tok) : Prop :=
  ∃ p mid, pre = p ++ y :: mid ∧ y.type = .AttributeName ∧ ∀ z ∈ mid, z.type ≠ .AttributeName

/-- With the cursor at `o` the value from `a` to `b` cannot be read byte by byte: it begins with a character
that is not ASCII, or it begins with a quote and the word around the cursor contains such a character. -/
def Unreadable (src : Str) (a b o : Nat) : Prop :=
  (∃ c, src[a]? = some c ∧ 128 ≤ c) ∨
  (src[a]? = some 34 ∨ src[a]? = some 39) ∧ ∃ k c, a < k ∧ k < b ∧ src[k]? = some c ∧ 128 ≤ c ∧
    ∀ j x, k < j ∧ j < o ∨ o ≤ j ∧ j < k → src[j]? = some x → ¬ BlankByte x

/-- What the participants propose for the value of an attribute: `value` is the text in front of the cursor. -/
def fromParticipants (e : CompEnv) (tag attr value : Str) (range : Range) : List CompItem :=
  e.participants.flatMap fun p =>
    if e.caseSensitive then p.onAttributeValue tag attr value range
    else p.onAttributeValue (toLower e.uni tag) (toLower e.uni attr) value range

/-- At `k` is `&`, and only letters and digits are between it and the cursor. -/
def RefStart (src : Str) (o k : Nat) : Prop :=
  k < o ∧ src[k]? = some 38 ∧ ∀ i, k < i → i < o → ∃ b, src[i]? = some b ∧ alnum b

/-- The item is the work of a participant. -/
def FromParticipant (e : CompEnv) (i : CompItem) : Prop :=
  ∃ p ∈ e.participants, i ∈ p.onContent ∨ ∃ tag attr value range, i ∈ p.onAttributeValue tag attr value range

/-- The cursor is in the range or at one of its ends: the range is given by offsets on both sides of the
cursor, or it ends at the cursor and starts in front of it on the same line. -/
def AroundCursor (d : TextDoc) (position : Pos) (range : Range) : Prop :=
  (∃ a b, a ≤ d.offsetAt position ∧ d.offsetAt position ≤ b ∧ range = ⟨d.posAt a, d.posAt b⟩) ∨
  (range.start.line = position.line ∧ range.start.character < position.character ∧ range.stop = position)

end Html.Spec
