import Verif.Model.Scanner

/-!
# Specification vocabulary for token streams

Small definitions used in the statements of the scanner properties.  They talk about
bytes, token types and lists only; none of them mentions how the scanner works.
-/

namespace Html.Spec
open Html

/-- `ts` covers the byte range `[a, b)` without gaps or overlaps. -/
def Contiguous : Nat → List Tok → Nat → Prop
  | a, [], b => a = b
  | a, t :: ts, b => t.offset = a ∧ t.offset ≤ t.stop ∧ Contiguous t.stop ts b

/-- The source bytes of a token. -/
def text (src : Str) (t : Tok) : Str := (src.take t.stop).drop t.offset

/-- `pat` occurs somewhere in `s`. -/
def Occurs (pat s : Str) : Prop := ∃ a b, s = a ++ pat ++ b

/-- `[A-Za-z0-9]` -/
def alnum (b : Nat) : Prop := (48 ≤ b ∧ b ≤ 57) ∨ (65 ≤ b ∧ b ≤ 90) ∨ (97 ≤ b ∧ b ≤ 122)

instance (b : Nat) : Decidable (alnum b) := by unfold alnum; infer_instance

/-- Element names: ASCII letters, digits and `_ : - .` (non-ASCII characters are subject
to the Unicode tables), not starting with `-` or `.`. -/
def ElementName (s : Str) : Prop :=
  s ≠ [] ∧ (∀ b ∈ s, b < 128 → alnum b ∨ b = 95 ∨ b = 58 ∨ b = 45 ∨ b = 46) ∧
  s.head? ≠ some 45 ∧ s.head? ≠ some 46

/-- Attribute names contain no whitespace, quotes, `< > / =`, and no control bytes
`00`-`0F`, `7F`. -/
def AttributeName (s : Str) : Prop :=
  s ≠ [] ∧ ∀ b ∈ s, b < 128 →
    15 < b ∧ b ≠ 32 ∧ b ≠ 34 ∧ b ≠ 39 ∧ b ≠ 60 ∧ b ≠ 62 ∧ b ≠ 47 ∧ b ≠ 61 ∧ b ≠ 127

/-- A quoted attribute value: opening quote, a body without that quote, and the
closing quote, which may be missing only at the end of the text (`atEnd`). -/
def QuotedValue (atEnd : Prop) (s : Str) : Prop :=
  ∃ q body, (q = 39 ∨ q = 34) ∧ q ∉ body ∧ (s = q :: body ++ [q] ∨ (s = q :: body ∧ atEnd))

/-- An unquoted attribute value: no whitespace, quotes, `` ` `` or `= < >`, followed by
at most one stray quote. -/
def UnquotedValue (s : Str) : Prop :=
  ∃ body, body ≠ [] ∧ (∀ b ∈ body, b < 128 →
      ¬ (9 ≤ b ∧ b ≤ 13) ∧ b ≠ 32 ∧ b ≠ 34 ∧ b ≠ 39 ∧ b ≠ 96 ∧ b ≠ 61 ∧ b ≠ 60 ∧ b ≠ 62) ∧
    (s = body ∨ s = body ++ [34] ∨ s = body ++ [39])

/-- Space, tab, newline, form feed, carriage return. -/
def Space (b : Nat) : Prop := b = 32 ∨ b = 9 ∨ b = 10 ∨ b = 12 ∨ b = 13

/-- ASCII upper case letters replaced by lower case letters. -/
def asciiLower (s : Str) : Str := s.map (fun b => if 65 ≤ b ∧ b ≤ 90 then b + 32 else b)

/-- What the text of a token of each type looks like (`src` is the whole text). -/
def TextOK (src : Str) (t : Tok) : Prop :=
  let x := text src t
  match t.type with
  | .StartCommentTag => x = b!"<!--"
  | .Comment => x ≠ [] ∧ ¬ Occurs b!"-->" x
  | .EndCommentTag => x = b!"-->"
  | .StartTagOpen => x = b!"<"
  | .StartTagClose => x = b!">" ∨ (x = [] ∧ src[t.offset]? = some 60)
  | .StartTagSelfClose => x = b!"/>"
  | .StartTag => ElementName x
  | .EndTagOpen => x = b!"</"
  | .EndTagClose => x = b!">" ∨ (x = [] ∧ src[t.offset]? = some 60)
  | .EndTag => ElementName x
  | .DelimiterAssign => x = b!"="
  | .AttributeName => AttributeName x
  | .AttributeValue => QuotedValue (t.stop = src.length) x ∨ UnquotedValue x
  | .StartDoctypeTag => asciiLower x = b!"<!doctype"
  | .Doctype => x ≠ [] ∧ 62 ∉ x
  | .EndDoctypeTag => x = b!">"
  | .Content => x ≠ [] ∧ 60 ∉ x
  | .Whitespace => x ≠ [] ∧ ∀ b ∈ x, Space b
  | .Unknown => x ≠ []
  | .Script => x ≠ []
  | .Styles => x ≠ [] ∧ ¬ Occurs b!"</style" x
  | .EOS => False

/-- Type of the last token that is not whitespace. -/
def lastNonWs (ts : List TT) : Option TT := (ts.filter (· ≠ .Whitespace)).getLast?

/-- The tokens that open or close tags. -/
def isBracket : TT → Bool
  | .StartTagOpen | .StartTagClose | .StartTagSelfClose | .EndTagOpen | .EndTagClose => true
  | _ => false

/-- Type of the last token that opens or closes a tag. -/
def lastBracket (ts : List TT) : Option TT := (ts.filter isBracket).getLast?

/-- Which token types may follow the history `pre`. -/
def MayFollow (pre : List TT) (t : TT) : Prop :=
  match t with
  | .StartTag => lastNonWs pre = some .StartTagOpen
  | .EndTag => lastNonWs pre = some .EndTagOpen
  | .DelimiterAssign => lastNonWs pre = some .AttributeName ∧ lastBracket pre = some .StartTagOpen
  | .AttributeValue => pre.getLast? = some .DelimiterAssign ∧ lastBracket pre = some .StartTagOpen
  | .AttributeName | .StartTagClose | .StartTagSelfClose => lastBracket pre = some .StartTagOpen
  | .EndTagClose => lastBracket pre = some .EndTagOpen
  | .Comment => pre.getLast? = some .StartCommentTag
  | .EndCommentTag => pre.getLast? = some .StartCommentTag ∨ pre.getLast? = some .Comment
  | .Doctype => pre.getLast? = some .StartDoctypeTag
  | .EndDoctypeTag => pre.getLast? = some .StartDoctypeTag ∨ pre.getLast? = some .Doctype
  | .Script | .Styles => pre.getLast? = some .StartTagClose
  | .Whitespace | .Unknown =>
    lastBracket pre = some .StartTagOpen ∨ lastBracket pre = some .EndTagOpen
  | .Content | .StartTagOpen | .EndTagOpen | .StartCommentTag | .StartDoctypeTag =>
    lastBracket pre ≠ some .StartTagOpen
  | .EOS => False

/-- The UTF-8 encoding of a code point. -/
def encodeCP (c : Nat) : Str :=
  if c < 0x80 then [c]
  else if c < 0x800 then [192 + c / 64, 128 + c % 64]
  else if c < 0x10000 then [224 + c / 4096, 128 + c / 64 % 64, 128 + c % 64]
  else [240 + c / 262144, 128 + c / 4096 % 64, 128 + c / 64 % 64, 128 + c % 64]

/-- `src` is the UTF-8 encoding of the code points `cps`. -/
def Utf8 (cps : List Nat) (src : Str) : Prop :=
  (∀ c ∈ cps, c < 0x110000) ∧ src = cps.flatMap encodeCP

/-- Non-ASCII white space and C1 control characters. -/
def OddSpace (c : Nat) : Prop :=
  (0x80 ≤ c ∧ c ≤ 0x9F) ∨ c = 0xA0 ∨ c = 0x1680 ∨ (0x2000 ≤ c ∧ c ≤ 0x200A) ∨ c = 0x2028 ∨
  c = 0x2029 ∨ c = 0x202F ∨ c = 0x205F ∨ c = 0x3000

end Html.Spec
