import Verif.Model.Bytes

/-!
# Text documents

`FullTextDocument` of the external crate `lsp-textdocument` and the position types
of `lsp-types`.  The services use the crate only through `position_at`, `offset_at` and
`get_content`; they are modelled for an arbitrary `TextDoc`.  `TextDoc.ref` is a
reference implementation of what the crate documents: lines end with `\n`, `\r\n` or
`\r`, columns count UTF-16 code units.
-/

namespace Html

/-- `lsp_types::Position`. -/
structure Pos where
  line : Nat
  character : Nat
deriving DecidableEq, Repr

/-- `lsp_types::Range` (`stop` is the field `end`). -/
structure Range where
  start : Pos
  stop : Pos
deriving DecidableEq, Repr

/-- `FullTextDocument`: `get_content(None)`, `position_at` and `offset_at`.  The casts
`as u32`/`as usize` around these calls are the identity for texts below 4 GiB. -/
structure TextDoc where
  text : Str
  posAt : Nat → Pos
  offsetAt : Pos → Nat

/-- The byte `b` in front of the text `t` ends a line (in `\r\n` it is the `\n` that does). -/
def isBreak (b : Nat) (t : Str) : Bool := b == 10 || (b == 13 && t.head? != some 10)

/-- Number of UTF-16 code units of the character that starts with this byte, none for
a continuation byte. -/
def units (b : Nat) : Nat := if isCont b then 0 else if 240 ≤ b then 2 else 1

/-- Reference `position_at`: offsets behind the end mean the end. -/
def refPosAt : Str → Nat → Pos
  | _, 0 => ⟨0, 0⟩
  | [], _ => ⟨0, 0⟩
  | b :: t, o + 1 =>
    let p := refPosAt t o
    if isBreak b t then ⟨p.line + 1, p.character⟩
    else if p.line = 0 then ⟨0, units b + p.character⟩
    else p

/-- Reference `offset_at`: columns behind the end of a line mean the start of the next
one, lines behind the last one the end of the text. -/
def refOffsetAt : Str → Nat → Nat → Nat
  | [], _, _ => 0
  | b :: t, l + 1, ch => 1 + refOffsetAt t (if isBreak b t then l else l + 1) ch
  | b :: t, 0, ch =>
    if isCont b then 1 + refOffsetAt t 0 ch
    else if ch = 0 then 0
    else if isBreak b t then 1 + refOffsetAt t 0 0
    else 1 + refOffsetAt t 0 (ch - units b)

/-- The reference document with the given text. -/
def TextDoc.ref (text : Str) : TextDoc where
  text := text
  posAt := refPosAt text
  offsetAt p := refOffsetAt text p.line p.character

end Html
