import Verif.Proof.LineEndingsLinks
import Verif.Props.LineEndings
import Verif.Props.Links
import Verif.Props.Uri

/-! # Links with `\r\n` instead of `\n`: C103 -/

namespace Html.Props
open Html Spec

/-- **C103.** With either line ending the links are the same, or finding them panics in the same way.  Line ends may be anywhere
but in the value of an `id` and in the value that is the base. -/
theorem C103_links (e : LinkEnv) (cps : List Nat) (d d' : TextDoc) (ts : List Tok) (hu : Utf8 cps d.text) (hd : OtherEnds d d')
    (ht : tokens ⟨e.uni, d.text, false, e.caseSensitive⟩ (.new 0 .WithinContent) = .ok ts)
    (hv : ∀ p ∈ splits ts, isIdValue e d.text p = true ∨ (isPathValue e d.text p = true ∧ awaitsBase e d.text p.1) →
      10 ∉ text d.text p.2) :
    findDocumentLinks e d' = findDocumentLinks e d :=
  links_cr hd hu ht hv

/-- A document with line ends in tags and in values. -/
def exLinesDoc : Str := b!"<p class='a\nb'\n><img src='y\n'>\n<a\nhref='#q'>\n<a href='z'><p\n id='q'>"

/-- The hypotheses of `C103_links` hold for it, and both texts have the same links. -/
example : OtherEnds (.ref exLinesDoc) (.ref (crlf exLinesDoc)) ∧
    returns (tokens ⟨exLinkEnv.uni, exLinesDoc, false, false⟩ (.new 0 .WithinContent)) (fun ts =>
      (splits ts).all (fun p => decide (isIdValue exLinkEnv exLinesDoc p = true ∨
        (isPathValue exLinkEnv exLinesDoc p = true ∧ awaitsBase exLinkEnv exLinesDoc p.1) → 10 ∉ text exLinesDoc p.2)) &&
      (splits ts).any (fun p => isIdValue exLinkEnv exLinesDoc p) &&
      (splits ts).any (fun p => isPathValue exLinkEnv exLinesDoc p && decide (10 ∈ text exLinesDoc p.2))) = true :=
  ⟨C92_positions _ (by decide), by decide +kernel⟩
example : returns (findDocumentLinks exLinkEnv (.ref exLinesDoc)) (fun l => l =
      [⟨⟨⟨5, 6⟩, ⟨5, 8⟩⟩, some b!"http://h/a.html#8,5"⟩, ⟨⟨⟨6, 9⟩, ⟨6, 10⟩⟩, some b!"http://h/z"⟩]) = true ∧
    returns (findDocumentLinks exLinkEnv (.ref (crlf exLinesDoc))) (fun l => l =
      [⟨⟨⟨5, 6⟩, ⟨5, 8⟩⟩, some b!"http://h/a.html#8,5"⟩, ⟨⟨⟨6, 9⟩, ⟨6, 10⟩⟩, some b!"http://h/z"⟩]) = true :=
  ⟨by decide +kernel, by decide +kernel⟩

/-- **C103 needs** a base without line ends, if the document context copies them. -/
theorem C103_needs_base :
    returns (findDocumentLinks { exLinkEnv with lib := exLib, resolve := fun r b => .ok (some (b ++ r)) }
      (.ref b!"<base href='z\n'><img src=y>")) (fun l => l =
      [⟨⟨⟨1, 11⟩, ⟨1, 12⟩⟩, some b!"http://h/a.htmlz\ny"⟩]) = true ∧
    returns (findDocumentLinks { exLinkEnv with lib := exLib, resolve := fun r b => .ok (some (b ++ r)) }
      (.ref b!"<base href='z\r\n'><img src=y>")) (fun l => l =
      [⟨⟨⟨1, 11⟩, ⟨1, 12⟩⟩, some b!"http://h/a.htmlz\r\ny"⟩]) = true :=
  ⟨by decide +kernel, by decide +kernel⟩

end Html.Props
