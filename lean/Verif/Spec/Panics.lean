import Verif.Spec.Accept

/-! # Specification vocabulary: where the scanner panics (C08) -/

namespace Html.Spec
open Html

/-- The tokens of the first `n` calls of `scan()`. -/
def firstTokens (c : Cfg) : Nat → Sc → R (List Tok)
  | 0, _ => .ok []
  | n + 1, s => do
    let s1 ← scan c s
    return s1.tok :: (← firstTokens c n s1)

/-- The tokens end with white space, or with unexpected characters other than `=` behind white
space. -/
def BehindSpace (src : Str) (ts : List Tok) : Prop :=
  ∃ pre w us, ts = pre ++ w :: us ∧ w.type = .Whitespace ∧
    ∀ x ∈ us, x.type = .Unknown ∧ bytesIn src x.offset x.stop ≠ b!"="

/-- The last token ends in a start tag behind white space, in the middle of a character. -/
def SplitsCharacter (src : Str) (ts : List Tok) : Prop :=
  BehindSpace src ts ∧ ∃ x, ts.getLast? = some x ∧ x.state = .WithinTag ∧ isBoundary src x.stop = false

/-- The last tokens are the attribute name `a`, white space or not, and `=`. -/
def AssignedTo (u : Uni) (caseSensitive : Bool) (src : Str) (ts : List Tok) (a : Str) : Prop :=
  ∃ pre n ws d, ts = pre ++ n :: (ws ++ [d]) ∧ n.type = .AttributeName ∧
    comparedName u caseSensitive (bytesIn src n.offset n.stop) = a ∧ (∀ w ∈ ws, w.type = .Whitespace) ∧
    d.type = .DelimiterAssign

/-- What follows begins with a quote that is not closed, and ends with a character that is not
ASCII. -/
def OpenQuote (r : Str) : Prop :=
  ∃ q v b, (q = 39 ∨ q = 34) ∧ r = q :: v ∧ q ∉ v ∧ v.getLast? = some b ∧ 128 ≤ b

/-- The position behind the last token; the start `o` if there is none. -/
def endOf (o : Nat) (ts : List Tok) : Nat := (ts.getLast?.map (·.stop)).getD o

end Html.Spec
