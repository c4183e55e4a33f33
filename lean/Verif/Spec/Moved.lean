import Verif.Spec.Position
import Verif.Model.TagServices
import Verif.Model.Symbols
import Verif.Model.Hover
import Verif.Model.Folding

/-! # Documents with more text in front (C96) -/

namespace Html.Spec

/-- Where a position is if its text is put behind a text that ends at `e`: as many lines further down, and as far to the
right on the line where the text in front ends. -/
def Pos.after (e p : Pos) : Pos := ⟨e.line + p.line, if p.line = 0 then e.character + p.character else p.character⟩

/-- Both ends of the range are moved. -/
def Range.after (e : Pos) (r : Range) : Range := ⟨Pos.after e r.start, Pos.after e r.stop⟩

/-- The edit is made at the moved place. -/
def TextEdit.after (e : Pos) (t : TextEdit) : TextEdit := ⟨Range.after e t.range, t.newText⟩

mutual
/-- The symbol and all those in it are moved. -/
def Symbol.after (e : Pos) : Symbol → Symbol
  | .mk name range selection children =>
    .mk name (Range.after e range) (Range.after e selection) (Symbol.afterAll e children)
/-- The same for a list of symbols. -/
def Symbol.afterAll (e : Pos) : List Symbol → List Symbol
  | [] => []
  | s :: l => Symbol.after e s :: Symbol.afterAll e l
end

/-- The symbol is moved. -/
def FlatSymbol.after (e : Pos) (s : FlatSymbol) : FlatSymbol := ⟨s.name, Range.after e s.range, s.container⟩

/-- The range of the hover is moved. -/
def Hover.after (e : Pos) (h : Hover) : Hover := ⟨h.contents, h.range.map (Range.after e)⟩

/-- The range `k` lines further down. -/
def Fold.down (k : Nat) (r : Fold) : Fold := ⟨k + r.startLine, k + r.endLine, r.kind⟩

/-- The document `d'` has the text of `d` behind the text `pre`, which ends at `e`, and the positions in it are those in `d`,
moved. -/
structure PutBehind (pre : Str) (e : Pos) (d d' : TextDoc) : Prop where
  text : d'.text = pre ++ d.text
  pos : ∀ o, d'.posAt (o + pre.length) = Pos.after e (d.posAt o)
  off : ∀ p, d'.offsetAt (Pos.after e p) = d.offsetAt p + pre.length

end Html.Spec
