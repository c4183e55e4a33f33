import Verif.Spec.Tokens
import Verif.Model.Parser
import Verif.Model.TextDocument
import Verif.Spec.Tree

/-!
# Texts that differ in their line endings only
-/

namespace Html.Spec
open Html

/-- The text with `\r\n` for every `\n`. -/
def crlf : Str → Str
  | [] => []
  | b :: t => if b = 10 then 13 :: 10 :: crlf t else b :: crlf t

/-- Where the offset `o` of the text is in `crlf text`: one byte further for every `\n` in front of it. -/
def crOff (text : Str) (o : Nat) : Nat := o + (text.take o).count 10

/-- A token of the text, as a token of `crlf text`. -/
def crTok (text : Str) (t : Tok) : Tok :=
  ⟨t.type, crOff text t.offset, crOff text t.stop, t.error, t.state⟩

/-- The attributes of an element of the text, as those of an element of `crlf text`. -/
def crAttrs (text : Str) (m : List (Str × Attr)) : List (Str × Attr) :=
  m.map fun (k, a) => (k, ⟨a.value.map crlf, crOff text a.offset⟩)

mutual
/-- An element of the text, as an element of `crlf text`. -/
def crNode (text : Str) : Node → Node
  | ⟨tag, start, stop, children, closed, startTagEnd, endTagStart, attributes⟩ =>
    ⟨tag, crOff text start, crOff text stop, crNodes text children, closed, startTagEnd.map (crOff text),
      endTagStart.map (crOff text), crAttrs text attributes⟩
/-- The same for a list of elements. -/
def crNodes (text : Str) : List Node → List Node
  | [] => []
  | n :: ns => crNode text n :: crNodes text ns
end

/-- The second document has the text of the first one with `\r\n` for `\n`, and gives the same positions to the same
places. -/
structure OtherEnds (d d' : TextDoc) : Prop where
  text : d'.text = crlf d.text
  pos : ∀ o, d'.posAt (crOff d.text o) = d.posAt o

/-- No line ends between `<` and where a name directly behind it ends; the same for `</`. -/
def OnOneLine (text : Str) (n : Node) : Prop :=
  10 ∉ bytesIn text n.start (n.start + 1 + (n.tag.getD []).length) ∧
  ∀ e, n.endTagStart = some e → 10 ∉ bytesIn text e (e + 2 + (n.tag.getD []).length)

/-- If the place is in the end tag of the element, behind `</`, the last byte of the element is not the end of a line, as in an
end tag without `>` in front of the next tag. -/
def CutOnLine (text : Str) (n : Node) (o : Nat) : Prop :=
  ∀ e, n.endTagStart = some e → e + 2 ≤ o → text[n.stop - 1]? ≠ some 10

/-- No line ends inside of an attribute value. -/
def ValuesOnLines (roots : List Node) : Prop :=
  ∀ n, InForest roots n → ∀ x ∈ n.attributes, ∀ v, x.2.value = some v → 10 ∉ v

end Html.Spec
