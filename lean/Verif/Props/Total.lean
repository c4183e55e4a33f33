import Verif.Proof.CompletionPanics
import Verif.Props.Hover
import Verif.Props.SelectionRange
import Verif.Props.Folding
import Verif.Props.TagServices
import Verif.Props.ValueProposals

/-! # When the services return: C49 -/

namespace Html.Props
open Html Spec

/-- C49: in a UTF-8 document that is parsed, completion at a position of the document panics exactly if the cursor is
in an attribute value (or behind it) that begins with a character that is not ASCII, or that begins with a quote and
has such a character in the word around the cursor. -/
theorem C49_completion_panics_iff (e : CompEnv) (void : List Str) (d : TextDoc) (cps : List Nat) (roots : List Node)
    (ts : List Tok) (p : Pos) (hu : Utf8 cps d.text) (hl : Lawful d) (hc : Columns d) (hp : Exact d p)
    (h : parse e.uni e.caseSensitive void d.text = .ok roots)
    (ht : tokens (parserCfg e.uni e.caseSensitive d.text) (.new 0 .WithinContent) = .ok ts) :
    (∃ x, doComplete e d p roots = .error x) ↔
      ∃ t ∈ ts, t.type = .AttributeValue ∧ t.offset < d.offsetAt p ∧ d.offsetAt p ≤ t.stop ∧
        Unreadable d.text t.offset t.stop (d.offsetAt p) :=
  (⟨h, ht⟩ : Doc _ _ _ _ _ _).complete_panics_iff hu hc hp (fun _ => (hl.inRange p).2)

/-- A document for the examples. -/
def exUnread : Str := b!"<p a=\"x é y\" b=é>é</p>"

/-- Of the cursors in the text, those in the word `é` of the first value and those in the second value panic. -/
example : Utf8 [60, 112, 32, 97, 61, 34, 120, 32, 233, 32, 121, 34, 32, 98, 61, 233, 62, 233, 60, 47, 112, 62] exUnread ∧
    (∀ r, parse exUni false [] exUnread = .ok r → (List.range 23).filter (fun o =>
      !returns (doComplete exComp (.ref exUnread) ⟨0, o⟩ r) (fun _ => true)) = [8, 9, 16]) := by
  refine ⟨⟨by decide, by krfl⟩, fun r h => ?_⟩
  have : parse exUni false [] exUnread = .ok [⟨some b!"p", 0, 25, [], true, some 19, some 21,
    [(b!"a", ⟨some b!"\"x é y\"", 3⟩), (b!"b", ⟨some b!"é", 14⟩)]⟩] := by krfl
  rw [this] at h
  cases h
  decide +kernel

/-- C49: in an ASCII document, completion at a position of the document returns. -/
theorem C49_completion_returns (u : Uni) (cs : Bool) (void : List Str) (e : CompEnv) (d : TextDoc) (roots : List Node)
    (p : Pos) (ha : isAscii d.text) (hc : Columns d) (hp : Exact d p) (h : parse u cs void d.text = .ok roots) :
    ∃ r, doComplete e d p roots = .ok r :=
  complete_total (utf8_of_ascii ha) hc hp (fun h => isAscii_boundary ha h) h
    (fun _ _ _ => smooth_of_ascii ha (.inr (.inl rfl)))

/-- C49: an ASCII document is parsed, and all services that are asked for a position of it return. -/
theorem C49_services_return (u : Uni) (cs : Bool) (void : List Str) (e : CompEnv) (he : HoverEnv) (d : TextDoc)
    (p : Pos) (hl : Lawful d) (hc : Columns d) (hp : Exact d p) (ha : isAscii d.text) :
    ∃ roots, parse u cs void d.text = .ok roots ∧
      (∃ r, doComplete e d p roots = .ok r) ∧
      (∃ r, doQuoteComplete e d p roots = .ok r) ∧
      (∃ r, doTagComplete e d p roots = .ok r) ∧
      (∃ r, doHover he d p roots = .ok r) ∧
      (∃ r, findDocumentHighlights u cs d p roots = .ok r) ∧
      (∃ r, getSelectionRanges u cs d roots [p] = .ok r) ∧
      (∃ r, getFoldingRanges u cs void d none = .ok r) := by
  obtain ⟨roots, h⟩ := C11_ascii_never_panics u cs void d.text ha
  obtain ⟨hr, h1, _⟩ := C30_highlights u cs void d roots p h
  obtain ⟨fr, h2, _⟩ := C34_plain_text_returns u cs void d _ (utf8_of_ascii ha)
    (fun cp hcp h => by have := ha cp hcp; unfold OddSpace at h; omega)
    (fun b hb => ha b (List.mem_of_getLast? hb))
  exact ⟨roots, h, C49_completion_returns u cs void e d roots p ha hc hp h, C39_ascii_returns e d p roots ha, C40_ascii_returns e d p roots ha,
    C42_ascii_no_panic u cs void he d roots p hl hc hp ha h, ⟨hr, h1⟩,
    C35_ascii_no_panic u cs void d roots [p] hl ha h, ⟨fr, h2⟩⟩

example : Lawful (.ref b!"<p>d&am") ∧ Columns (.ref b!"<p>d&am") ∧ Exact (.ref b!"<p>d&am") ⟨0, 7⟩ ∧ isAscii b!"<p>d&am" :=
  ⟨C50_reference_document_lawful _, ref_columns _, by unfold Exact; decide +kernel, by decide⟩

/-- C49: a UTF-8 document without unusual white space that ends in an ASCII character is parsed, and all services
that are asked for a position of it return; completion does unless the cursor is in a value as in
`C49_completion_panics_iff`, selection ranges do if elements end in ASCII characters. -/
theorem C49_plain_text_services_return (void : List Str) (e : CompEnv) (he : HoverEnv) (d : TextDoc) (cps : List Nat)
    (p : Pos) (hl : Lawful d) (hc : Columns d) (ho : Ordered d) (hp : Exact d p) (hu : Utf8 cps d.text)
    (hodd : ∀ cp ∈ cps, ¬ OddSpace cp) (hlast : ∀ b, d.text.getLast? = some b → b < 128) :
    ∃ roots ts, parse e.uni e.caseSensitive void d.text = .ok roots ∧
      tokens (parserCfg e.uni e.caseSensitive d.text) (.new 0 .WithinContent) = .ok ts ∧
      ((∀ t ∈ ts, t.type = .AttributeValue → t.offset < d.offsetAt p → d.offsetAt p ≤ t.stop →
        ¬ Unreadable d.text t.offset t.stop (d.offsetAt p)) → ∃ r, doComplete e d p roots = .ok r) ∧
      (∃ r, doQuoteComplete e d p roots = .ok r) ∧
      (∃ r, doTagComplete e d p roots = .ok r) ∧
      (∃ r, doHover he d p roots = .ok r) ∧
      (∃ r, findDocumentHighlights e.uni e.caseSensitive d p roots = .ok r) ∧
      ((∀ n, InForest roots n → ∀ b, d.text[n.stop - 1]? = some b → b < 128) →
        ∃ r, getSelectionRanges e.uni e.caseSensitive d roots [p] = .ok r) ∧
      (∃ r, getFoldingRanges e.uni e.caseSensitive void d none = .ok r) := by
  obtain ⟨roots, h⟩ := C11_utf8_never_panics e.uni e.caseSensitive void d.text cps hu hodd hlast
  obtain ⟨ts, ht⟩ := (C11_parser_returns_iff_scanner_does e.uni e.caseSensitive void d.text cps hu).1 ⟨roots, h⟩
  obtain ⟨hr, h1, _⟩ := C30_highlights e.uni e.caseSensitive void d roots p h
  obtain ⟨fr, h2, _⟩ := C34_plain_text_returns e.uni e.caseSensitive void d cps hu hodd hlast
  refine ⟨roots, ts, h, ht, fun hv => ?_, C39_plain_text_returns e d cps p roots hu hodd hlast,
    C40_plain_text_returns e d cps p roots hu hodd hlast,
    C42_plain_text_no_panic e.uni e.caseSensitive void he d cps roots p hl hc hp hu hodd hlast h, ⟨hr, h1⟩,
    fun hn => C35_plain_text_no_panic e.uni e.caseSensitive void d cps roots [p] hl ho hu hodd h hn, ⟨fr, h2⟩⟩
  cases hx : doComplete e d p roots with
  | ok r => exact ⟨r, rfl⟩
  | error x =>
    obtain ⟨t, t1, t2, t3, t4, t5⟩ := (C49_completion_panics_iff e void d cps roots ts p hu hl hc hp h ht).1 ⟨x, hx⟩
    exact absurd t5 (hv t t1 t2 t3 t4)

/-- The hypotheses are met by a text that is not ASCII. -/
example : Utf8 [60, 233, 62, 10] b!"<é>\n" ∧ (∀ cp ∈ [60, 233, 62, 10], ¬ OddSpace cp) ∧ Ordered (.ref b!"<é>\n") ∧
    Exact (.ref b!"<é>\n") ⟨0, 2⟩ := by
  refine ⟨⟨by decide, by krfl⟩, ?_, ref_ordered _, by unfold Exact; decide +kernel⟩
  simp [OddSpace]

/-- C49 needs a position of the document: completion behind the last line panics, if the text ends with a
letter in content. -/
theorem C49_panics_behind_last_line (u : Uni) (cs : Bool) :
    ∃ roots, parse u cs [] b!"<p>a" = .ok roots ∧
      doComplete { exComp with uni := u, caseSensitive := cs } (.ref b!"<p>a") ⟨1, 0⟩ roots = .error .underflow := by
  refine ⟨[⟨some b!"p", 0, 4, [], false, some 3, none, []⟩], ?_, ?_⟩ <;> cases cs <;> krfl

end Html.Props
