/-!
# Texts, panics and character classes

Rust `&str`/`String` values are modelled as lists of bytes (`Nat`s).  All byte
lists are allowed; the UTF-8 encoded ones are among them.
-/

namespace Html

abbrev Str := List Nat

/-- `b!"text"` is the list of UTF-8 bytes of a string literal. -/
syntax:max "b!" str : term
macro_rules
  | `(b! $s:str) => do
    let bs := s.getString.toUTF8.toList.map
      (fun b => (Lean.Syntax.mkNumLit (toString b.toNat) : Lean.TSyntax `term))
    let bs := bs.toArray
    `(([$[$bs],*] : Str))

/-- The ways in which the Rust code can panic. -/
inductive Panic
  /-- string slice out of bounds or not on a char boundary -/
  | slice
  /-- `Option::unwrap` on `None` -/
  | unwrap
  /-- integer underflow (`usize` subtraction, debug profile) -/
  | underflow
  /-- `Vec` index out of bounds -/
  | index
  /-- integer division by zero -/
  | divZero
  /-- the model's loop fuel ran out (proved unreachable) -/
  | fuel
deriving DecidableEq, Repr

abbrev R (α : Type) := Except Panic α

/-! ### Bytes -/

/-- UTF-8 continuation byte (`0x80..=0xBF`). -/
def isCont (b : Nat) : Bool := 128 ≤ b && b < 192

/-- `str::is_char_boundary`: the offset is the length, or the byte there is not
a continuation byte. -/
def isBoundary (s : Str) (i : Nat) : Bool :=
  if i = s.length then true
  else match s[i]? with
    | some b => !isCont b
    | none => false

/-- Rust `&s[a..b]` on a `str`: panics unless `a <= b <= len` on boundaries. -/
def sliceStr (s : Str) (a b : Nat) : R Str :=
  if a ≤ b && b ≤ s.length && isBoundary s a && isBoundary s b then
    .ok ((s.take b).drop a)
  else .error .slice

/-- The plain byte range `[a, b)` of a text (specification helper). -/
def bytesIn (s : Str) (a b : Nat) : Str := (s.take b).drop a

/-- Checked `usize` subtraction. -/
def subU (a b : Nat) : R Nat := if b ≤ a then .ok (a - b) else .error .underflow

/-- `Option::unwrap`. -/
def unwrap {α : Type} : Option α → R α
  | some a => .ok a
  | none => .error .unwrap

/-- Code point starting at the head of a byte list (UTF-8 decoding; missing
bytes are read as 0, which does not happen on valid UTF-8). -/
def codePoint : Str → Nat
  | [] => 0
  | b :: t =>
    if b < 128 then b
    else if b < 224 then (b - 192) * 64 + (t.headD 128 - 128)
    else if b < 240 then (b - 224) * 4096 + (t.headD 128 - 128) * 64 + (t.tail.headD 128 - 128)
    else (b - 240) * 262144 + (t.headD 128 - 128) * 4096 + (t.tail.headD 128 - 128) * 64
      + (t.tail.tail.headD 128 - 128)

/-- All bytes are ASCII. -/
def isAscii (s : Str) : Prop := ∀ b ∈ s, b < 128

instance (s : Str) : Decidable (isAscii s) := by unfold isAscii; infer_instance

/-! ### Unicode tables -/

/-- Unicode data used through `regex`'s `\w` and `str::to_lowercase`, for
non-ASCII input only.  The theorems hold for every value of this structure. -/
structure Uni where
  /-- `\w` on a code point ≥ 128 -/
  wordNA : Nat → Bool
  /-- `str::to_lowercase` on a string containing a non-ASCII byte -/
  lowerNA : Str → Str

/-- Regex class `\s` (Unicode `White_Space`). -/
def isSpaceCP (c : Nat) : Bool :=
  (9 ≤ c && c ≤ 13) || c == 32 || c == 0x85 || c == 0xA0 || c == 0x1680 ||
  (0x2000 ≤ c && c ≤ 0x200A) || c == 0x2028 || c == 0x2029 || c == 0x202F ||
  c == 0x205F || c == 0x3000

/-- Regex class `\w` on ASCII: `[0-9A-Za-z_]`. -/
def isWordAscii (c : Nat) : Bool :=
  (48 ≤ c && c ≤ 57) || (65 ≤ c && c ≤ 90) || c == 95 || (97 ≤ c && c ≤ 122)

/-- Regex class `\w`. -/
def isWordCP (u : Uni) (c : Nat) : Bool :=
  if c < 128 then isWordAscii c else u.wordNA c

/-- ASCII lower-casing of one byte. -/
def lowerByte (b : Nat) : Nat := if 65 ≤ b ∧ b ≤ 90 then b + 32 else b

/-- `str::to_lowercase`. -/
def toLower (u : Uni) (s : Str) : Str :=
  if s.all (· < 128) then s.map lowerByte else u.lowerNA s

/-! ### Matching primitives on the remaining input -/

/-- `[class]*` at the head of the input: number of bytes matched.  Continuation
bytes belong to the character that was accepted before them. -/
def runLen (p : Nat → Bool) : Str → Nat
  | [] => 0
  | b :: t =>
    if isCont b then 1 + runLen p t
    else if p (codePoint (b :: t)) then 1 + runLen p t
    else 0

/-- `[first][rest]*` at the head of the input: number of bytes matched, `0` if
there is no match. -/
def firstRunLen (p q : Nat → Bool) : Str → Nat
  | [] => 0
  | b :: t => if p (codePoint (b :: t)) then 1 + runLen q t else 0

/-- Number of bytes in front of the first byte `c` (all of them if none). -/
def untilByte (c : Nat) : Str → Nat
  | [] => 0
  | b :: t => if b = c then 0 else 1 + untilByte c t

/-- Number of bytes in front of the first occurrence of `lit` (all if none). -/
def untilLit (lit : Str) : Str → Nat
  | [] => 0
  | b :: t => if lit.isPrefixOf (b :: t) then 0 else 1 + untilLit lit t

/-- The bytes skipped by `MultiLineStream::skip_whitespace`. -/
def isWs (b : Nat) : Bool := b == 32 || b == 9 || b == 10 || b == 12 || b == 13

/-- Number of whitespace bytes at the head. -/
def wsLen : Str → Nat
  | [] => 0
  | b :: t => if isWs b then 1 + wsLen t else 0

end Html
