import Verif.Proof.Panics
import Verif.Props.Parser

/-! # Where exactly scanner and parser panic: C08, C11 -/

namespace Html.Props
open Html Spec

/-- C08: on UTF-8 texts scanning panics exactly in two situations. Either a token ends in the middle
of a character in a start tag, with white space in front of it that is followed by unexpected
characters only; or the value of an attribute `type` begins with a quote that is not closed, and
the text ends with a character that is not ASCII. -/
theorem C08_panics_iff (c : Cfg) (cps : List Nat) (o : Nat) (st : SS) (hu : Utf8 cps c.src)
    (ho : isBoundary c.src o = true) :
    (∃ e, tokens c (.new o st) = .error e) ↔
      ∃ n ts, firstTokens c n (.new o st) = .ok ts ∧
        (SplitsCharacter c.src ts ∨
          (AssignedTo c.uni c.caseSensitive c.src ts b!"type" ∧ OpenQuote (c.src.drop (endOf o ts)))) :=
  tokens_panic_iff (asciiNext_of_utf8 hu) (lastByte_of_utf8 hu) ho

/-- C08: the character that is split in the first situation is a white-space or control character. -/
theorem C08_split_character (c : Cfg) (cps : List Nat) (o n : Nat) (st : SS) (ts : List Tok) (hu : Utf8 cps c.src)
    (ho : isBoundary c.src o = true) (h : firstTokens c n (.new o st) = .ok ts) (hs : SplitsCharacter c.src ts) :
    ∃ x cp r, ts.getLast? = some x ∧ x.type = .Unknown ∧ OddSpace cp ∧ c.src.drop x.offset = encodeCP cp ++ r :=
  split_odd hu ho h hs

/-- C08: as long as the scanner returns, so does `get_token_text()`, for every token that is neither
`Unknown` nor directly behind an `Unknown` token. -/
theorem C08_token_text (c : Cfg) (cps : List Nat) (o n : Nat) (st : SS) (s1 s2 : Sc) (hu : Utf8 cps c.src)
    (ho : isBoundary c.src o = true) (h1 : scanN c n (.new o st) = .ok s1) (h2 : scan c s1 = .ok s2)
    (hn : n = 0 ∨ s1.tokenType ≠ .Unknown) (ht : s2.tokenType ≠ .Unknown) :
    ∃ t, tokenText c s2 = .ok t := by
  have hc := asciiNext_of_utf8 hu
  have hle : (Sc.new o st).pos ≤ c.src.length := isBoundary_le ho
  obtain ⟨l, hl⟩ := firstTokens_of_scanN h1
  obtain ⟨s1', k1, _, k2, k3, _⟩ := firstTokens_hist hc (Hist.init o st) (.inl ho) hle (fun h => by cases h) hl
  rw [h1] at k1
  cases k1
  have hst := scan_step h2
  have hb2 := hst.end_boundary hc k3 k2 ht
  have hb1 : isBoundary c.src s1.pos = true := by
    rcases scanN_before h1 (.inl ho) hle hc with ⟨rfl, rfl⟩ | ⟨s0, m1, m2, m3, m4⟩
    · exact ho
    · exact m2.end_boundary hc m4 m3 (hn.resolve_left (by omega))
  unfold tokenText
  rw [hst.offset_eq, sliceStr_eq (hst.pos_le k3).1 hb1 hb2]
  exact ⟨_, rfl⟩

/-- C11: so the parser panics exactly in the two situations of C08. -/
theorem C11_panics_iff (u : Uni) (cs : Bool) (void : List Str) (src : Str) (cps : List Nat) (hu : Utf8 cps src) :
    (∃ e, parse u cs void src = .error e) ↔
      ∃ n ts, firstTokens (parserCfg u cs src) n (.new 0 .WithinContent) = .ok ts ∧
        (SplitsCharacter src ts ∨ (AssignedTo u cs src ts b!"type" ∧ OpenQuote (src.drop (endOf 0 ts)))) := by
  have h := C08_panics_iff (parserCfg u cs src) cps 0 .WithinContent hu
    (by obtain ⟨h1, h2⟩ := id hu; show isBoundary src 0 = true; rw [h2]; exact utf8_start h1)
  refine Iff.trans ?_ h
  have h2 := C11_parser_returns_iff_scanner_does u cs void src cps hu
  cases h3 : parse u cs void src with
  | error e =>
    cases h4 : tokens (parserCfg u cs src) (.new 0 .WithinContent) with
    | error e' => exact ⟨fun _ => ⟨e', rfl⟩, fun _ => ⟨e, rfl⟩⟩
    | ok ts =>
      obtain ⟨r, hr⟩ := h2.2 ⟨ts, h4⟩
      rw [h3] at hr; cases hr
  | ok r =>
    cases h4 : tokens (parserCfg u cs src) (.new 0 .WithinContent) with
    | error e' =>
      obtain ⟨r, hr⟩ := h2.1 ⟨r, h3⟩
      rw [h4] at hr; cases hr
    | ok ts => exact ⟨fun ⟨e, h⟩ => (by cases h), fun ⟨e, h⟩ => (by cases h)⟩

/-- No-break spaces in text and in names are fine. -/
def exOdd : Str := b!"<a b> \u00a0 </a\u00a0 ><p\u00a0x y=\u00a0>"

example : Utf8 [60, 97, 32, 98, 62, 32, 160, 32, 60, 47, 97, 160, 32, 62, 60, 112, 160, 120, 32, 121, 61, 160, 62] exOdd :=
  ⟨by decide, by krfl⟩

example : returns (tokens (exCfg exOdd) (.new 0 .WithinContent)) (fun _ => true) = true := by decide +kernel

/-- Both situations occur. -/
example : returns (firstTokens (exCfg b!"<div \u00a0>") 4 (.new 0 .WithinContent)) (fun ts =>
    ts.map (fun t => (t.type, t.offset, t.stop, t.state)) =
      [(.StartTagOpen, 0, 1, .AfterOpeningStartTag), (.StartTag, 1, 4, .WithinTag), (.Whitespace, 4, 5, .WithinTag),
       (.Unknown, 5, 6, .WithinTag)]) = true := by decide +kernel
example : isBoundary b!"<div \u00a0>" 6 = false := by decide
example : returns (firstTokens (exCfg b!"<a TYPE =\"é") 6 (.new 0 .WithinContent)) (fun ts =>
    ts.map (fun t => (t.type, t.offset, t.stop)) =
      [(.StartTagOpen, 0, 1), (.StartTag, 1, 2), (.Whitespace, 2, 3), (.AttributeName, 3, 7), (.Whitespace, 7, 8),
       (.DelimiterAssign, 8, 9)]) = true := by decide +kernel
example : OpenQuote (b!"<a TYPE =\"é".drop 9) := ⟨34, [195, 169], 169, .inr rfl, by decide, by decide, by decide, by decide⟩

end Html.Props
