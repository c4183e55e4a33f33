import Verif.Proof.Tile
import Verif.Proof.Grammar
import Verif.Proof.Restart
import Verif.Proof.Utf8
import Verif.Spec.Ok

/-!
# Properties of the scanner (C01 - C09)

`Cfg` is a scanner configuration (text, pseudo-close flag, case sensitivity, Unicode
tables), `Sc` a scanner state; `scan c s` is one call of `scan()`, `scanN c n s` are `n`
calls, and `tokens c s` is the list of tokens a client sees that calls `scan()` until EOS.
-/

namespace Html.Props
open Html Html.Spec

/-! ### C01 -/

/-- C01: `2 * remaining + 1` calls reach EOS, whatever the scanner state, unless a call
panics. -/
theorem C01_scanning_terminates (c : Cfg) (s s' : Sc) (hp : s.pos ≤ c.src.length)
    (h : scanN c (2 * (c.src.length - s.pos) + 1) s = .ok s') : s'.tokenType = .EOS :=
  scanN_mu (by have := mu_le c s; omega) hp h

/-- C01: the loop "scan until EOS" never runs out of its `2 * remaining + 2` iterations,
and more iterations do not change the result. -/
theorem C01_scan_loop_bound (c : Cfg) (s : Sc) (extra : Nat) :
    tokens c s ≠ .error .fuel ∧
    tokensF c (2 * (c.src.length - s.pos) + 2 + extra) s = tokens c s := by
  have := mu_le c s
  refine ⟨fun h => ?_, tokensF_fuel (by omega) extra⟩
  cases tokensF_err (by omega) h

/-- The configuration used in the examples. -/
def exCfg (src : Str) : Cfg := ⟨⟨fun _ => true, id⟩, src, true, false⟩

example : returns (scanN (exCfg b!"<a x=1>t</a") (2 * 11 + 1) (.new 0 .WithinContent))
    (fun s' => s'.tokenType = .EOS) = true := by decide +kernel

/-! ### C02 -/

/-- C02: the tokens tile the text from the scanner's position to the end, and their texts
concatenate to the scanned text. -/
theorem C02_tokens_tile (c : Cfg) (s : Sc) (ts : List Tok) (hp : s.pos ≤ c.src.length)
    (h : tokens c s = .ok ts) :
    Contiguous s.pos ts c.src.length ∧ ts.flatMap (text c.src) = c.src.drop s.pos := by
  obtain ⟨s2, hr, hl⟩ := tokens_run h
  obtain ⟨h1, h2, h3, h4⟩ := hr.contiguous hp
  have e : s2.pos = c.src.length := by omega
  rw [e] at h1 h4
  exact ⟨h1, by rw [h4, bytesIn_to_end]⟩

example : returns (tokens (exCfg b!"<a x=1>t</a") (.new 0 .WithinContent))
    (fun ts => ts.map (fun t => (t.offset, t.stop)) =
      [(0, 1), (1, 2), (2, 3), (3, 4), (4, 5), (5, 6), (6, 7), (7, 8), (8, 10), (10, 11)]) = true := by
  decide +kernel

/-! ### C03 -/

/-- C03: without pseudo-close tags every token is non-empty. -/
theorem C03_tokens_nonempty (c : Cfg) (s : Sc) (ts : List Tok) (hc : c.emitPseudo = false)
    (h : tokens c s = .ok ts) : ∀ t ∈ ts, t.offset < t.stop := by
  obtain ⟨s2, hr, _⟩ := tokens_run h
  intro t ht
  obtain ⟨s0, s1, hst, hne, rfl⟩ := hr.mem ht
  obtain ⟨ho, h1 | ⟨_, h1 | h1⟩⟩ := hst.facts
  · exact absurd (by rw [h1.2]; rfl) hne
  · show s1.tokenOffset < s1.pos
    rw [ho]; exact h1.2.1
  · have := h1.1; rw [hc] at this; cases this

/-- C03: with pseudo-close tags the empty tokens are exactly start-tag-close and
end-tag-close tokens in front of a `<`, marked with the error "Closing bracket missing". -/
theorem C03_only_pseudo_close_empty (c : Cfg) (s : Sc) (ts : List Tok)
    (h : tokens c s = .ok ts) : ∀ t ∈ ts, t.offset < t.stop ∨
      (t.stop = t.offset ∧ (t.type = .StartTagClose ∨ t.type = .EndTagClose) ∧
        c.src[t.offset]? = some 60 ∧ t.error = some .closingBracketMissing) := by
  obtain ⟨s2, hr, _⟩ := tokens_run h
  intro t ht
  obtain ⟨s0, s1, hst, hne, rfl⟩ := hr.mem ht
  obtain ⟨ho, h1 | ⟨_, h1 | h1⟩⟩ := hst.facts
  · exact absurd (by rw [h1.2]; rfl) hne
  · left
    show s1.tokenOffset < s1.pos
    rw [ho]; exact h1.2.1
  · right
    obtain ⟨_, h2, _, h3, h4, h5⟩ := h1
    refine ⟨?_, ?_, ?_, h4⟩
    · show s1.pos = s1.tokenOffset
      rw [h2, ho]
    · rcases h5 with ⟨h5, _⟩ | ⟨h5, _⟩
      · exact .inl h5
      · exact .inr h5
    · show c.src[s1.tokenOffset]? = some 60
      rw [ho]; exact rest_get h3

example : returns (tokens (exCfg b!"<a<b></c<d>") (.new 0 .WithinContent))
    (fun ts => (ts.filter (fun t => t.offset = t.stop)).map (fun t => (t.type, t.offset)) =
      [(.StartTagClose, 2), (.EndTagClose, 8)]) = true := by decide +kernel
example : returns (tokens { exCfg b!"<a<b></c<d>" with emitPseudo := false } (.new 0 .WithinContent))
    (fun ts => ts.all (fun t => t.offset < t.stop)) = true := by decide +kernel

/-! ### C04 -/

/-- C04: a scan returns EOS iff the position is at the end of the text; then nothing but
the reported token changes, and every further scan returns EOS with the same
offset, end and state. -/
theorem C04_eos (c : Cfg) (s s' : Sc) (h : scan c s = .ok s') :
    (s'.tokenType = .EOS ↔ c.src.length ≤ s.pos) ∧
    (s'.tokenType = .EOS → s'.pos = s.pos ∧ s'.state = s.state ∧ s'.tokenOffset = s.pos ∧
      ∀ n, scanN c n s' = .ok s') := by
  have hst := scan_step h
  refine ⟨hst.eos_iff, fun he => ?_⟩
  have hl := hst.eos_iff.1 he
  rw [scan_eos hl] at h
  cases h
  refine ⟨rfl, rfl, rfl, fun n => ?_⟩
  cases n with
  | zero => rfl
  | succ n => exact scanN_eos (s := fin s s.pos .EOS none) hl

/-- C04: at the end of the text a scan cannot panic. -/
theorem C04_eos_no_panic (c : Cfg) (s : Sc) (h : c.src.length ≤ s.pos) :
    ∃ s', scan c s = .ok s' ∧ s'.tokenType = .EOS := ⟨_, scan_eos h, rfl⟩

example : returns (scan (exCfg b!"ab") (.new 2 .WithinContent))
    (fun s' => s'.tokenType = .EOS) = true := by decide +kernel

/-! ### C05 -/

/-- C05: whenever the internal scan returns, it returned EOS, or consumed input, or
returned a permitted pseudo-close token; so `scan` returns exactly its result. -/
theorem C05_recovery_dead (c : Cfg) (s : Sc) :
    scan c s = internalScan c s ∧
    ∀ s', internalScan c s = .ok s' →
      s'.tokenType = .EOS ∨ s.pos < s'.pos ∨
      (c.emitPseudo = true ∧ (s'.tokenType = .StartTagClose ∨ s'.tokenType = .EndTagClose)) := by
  refine ⟨scan_eq_internalScan .., fun s' h => ?_⟩
  rw [← scan_eq_internalScan] at h
  obtain ⟨ho, h1 | ⟨_, h1 | h1⟩⟩ := (scan_step h).facts
  · left; rw [h1.2]; rfl
  · exact .inr (.inl h1.2.1)
  · refine .inr (.inr ⟨h1.1, ?_⟩)
    rcases h1.2.2.2.2.2 with ⟨h5, _⟩ | ⟨h5, _⟩
    · exact .inl h5
    · exact .inr h5

example : returns (internalScan (exCfg b!"<a<") (.new 2 .WithinTag))
    (fun s' => s'.tokenType = .StartTagClose ∧ s'.pos = 2) = true := by decide +kernel

/-! ### C06 -/

/-- C06: the token stream from `WithinContent` obeys the token grammar `MayFollow`. -/
theorem C06_token_grammar (c : Cfg) (o : Nat) (ts pre post : List Tok) (t : Tok)
    (h : tokens c (.new o .WithinContent) = .ok ts) (hts : ts = pre ++ t :: post) :
    MayFollow (pre.map Tok.type) t.type := by
  obtain ⟨s2, hr, _⟩ := tokens_run h
  have := hr.grammar (hist := []) (by simp [GInv, Sc.new, lastBracket]) hts
  simpa using this

example : returns (tokens (exCfg b!"<a x=1>t</a>") (.new 0 .WithinContent))
    (fun ts => ts.map Tok.type = [.StartTagOpen, .StartTag, .Whitespace, .AttributeName, .DelimiterAssign,
      .AttributeValue, .StartTagClose, .Content, .EndTagOpen, .EndTag, .EndTagClose]) = true := by
  decide +kernel

/-! ### C07 -/

/-- C07: every token's text is of the form its type promises. -/
theorem C07_token_text (c : Cfg) (s : Sc) (ts : List Tok) (h : tokens c s = .ok ts) :
    ∀ t ∈ ts, TextOK c.src t := by
  obtain ⟨s2, hr, _⟩ := tokens_run h
  intro t ht
  obtain ⟨s0, s1, hst, hne, rfl⟩ := hr.mem ht
  exact hst.textOK hne

example : returns (tokens (exCfg b!"<!--a--><b c='d'>") (.new 0 .WithinContent))
    (fun ts => ts.length = 10) = true := by decide +kernel

/-! ### C08 -/

/-- C08: scanning UTF-8 text never panics if the text has no non-ASCII white space or C1
control character and ends with an ASCII character (`C08_panics_iff` says exactly when it does,
the `C08_scan_panics*` theorems are examples). -/
theorem C08_plain_text_returns (c : Cfg) (cps : List Nat) (o : Nat) (st : SS)
    (hu : Utf8 cps c.src) (hodd : ∀ cp ∈ cps, ¬ OddSpace cp)
    (hlast : ∀ b, c.src.getLast? = some b → b < 128) (ho : isBoundary c.src o = true) :
    (∃ ts, tokens c (.new o st) = .ok ts) ∧ ∀ n, ∃ s', scanN c n (.new o st) = .ok s' := by
  have hc := clean_of_utf8 hu hodd hlast
  have hi : BInv c (.new o st) := .inl ho
  have := mu_le c (.new o st)
  exact ⟨tokensF_clean hc hi (by show mu _ _ < _; simp only [Sc.new] at *; omega),
    fun n => scanN_clean hc hi⟩

/-- C08 for ASCII texts, in full: no call of `scan()` and no `get_token_text()` of its
token panics. -/
theorem C08_ascii_no_panic (c : Cfg) (s : Sc) (h : isAscii c.src) (hp : s.pos ≤ c.src.length) :
    (∃ ts, tokens c s = .ok ts) ∧
    ∀ n, ∃ s', scanN c n s = .ok s' ∧ (0 < n → ∃ x, tokenText c s' = .ok x) := by
  have hc := clean_of_ascii h
  have hi : BInv c s := .inl (isAscii_boundary h hp)
  have := mu_le c s
  refine ⟨tokensF_clean hc hi (by omega), fun n => ?_⟩
  clear this
  induction n generalizing s with
  | zero => exact ⟨s, rfl, fun h => by omega⟩
  | succ n ih =>
    cases h1 : scan c s with
    | error e => exact absurd h1 (scan_clean hc hi)
    | ok s1 =>
      have hst := scan_step h1
      obtain ⟨s', hs', ht⟩ := ih s1 (hst.pos_le hp).2 (hst.binv hc hi)
      refine ⟨s', by unfold scanN; rw [h1]; exact hs', fun _ => ?_⟩
      cases n with
      | zero =>
        cases hs'
        have h2 := hst.pos_le hp
        unfold tokenText
        rw [hst.offset_eq, sliceStr_eq h2.1 (isAscii_boundary h hp) (isAscii_boundary h h2.2)]
        exact ⟨_, rfl⟩
      | succ n => exact ht (by omega)

/-- C08 fails: a no-break space after the tag name makes `scan()` panic (the second scan
after it starts in the middle of the character), for all Unicode tables and flags. -/
theorem C08_scan_panics_on_nbsp (u : Uni) (cs ps : Bool) :
    tokens ⟨u, b!"<div  >", ps, cs⟩ (.new 0 .WithinContent) = .error .slice := by
  cases cs <;> cases ps <;> krfl

/-- C08 fails: an unterminated quoted `type` value ending in a non-ASCII character makes
`scan()` panic. -/
theorem C08_scan_panics_on_type (u : Uni) (ps : Bool) :
    tokens ⟨u, b!"<a type=\"é", ps, false⟩ (.new 0 .WithinContent) = .error .slice := by
  cases ps <;> krfl

/-- C08 fails: `get_token_text()` panics on the fourth token of `</a €>`. -/
theorem C08_token_text_panics (u : Uni) (ps cs : Bool) :
    ∃ s', scanN ⟨u, b!"</a €>", ps, cs⟩ 4 (.new 0 .WithinContent) = .ok s' ∧
      s'.tokenType = .Unknown ∧ tokenText ⟨u, b!"</a €>", ps, cs⟩ s' = .error .slice := by
  cases ps <;> cases cs <;>
    exact ⟨⟨.WithinContent, .Unknown, 4, some .closingBracketExpected, 5, false, none, none, none⟩,
      by krfl, rfl, rfl⟩

example : Utf8 [60, 97, 32, 0xe9, 62] b!"<a é>" ∧ (∀ cp ∈ [60, 97, 32, 0xe9, 62], ¬ OddSpace cp) ∧
    isBoundary b!"<a é>" 0 = true := by
  refine ⟨⟨by decide, by decide⟩, ?_, by decide⟩
  intro cp h; simp at h; unfold OddSpace; omega

/-! ### C09 -/

/-- C09: a scanner that is in `WithinContent` produces the same tokens (and the same
panics) as a fresh scanner started at its position. -/
theorem C09_restart (c : Cfg) (s : Sc) (h : s.state = .WithinContent) :
    tokens c s = tokens c (.new s.pos .WithinContent) :=
  tokensF_eqv ⟨h, rfl, fun hs => by simp [h] at hs⟩

/-- C09, as used by the services: if after some tokens the scanner is in `WithinContent`,
the remaining tokens are those of a fresh scanner. -/
theorem C09_suffix (c : Cfg) (s s1 : Sc) (n : Nat) (h : scanN c n s = .ok s1)
    (hs : s1.state = .WithinContent) (ts : List Tok)
    (ht : tokens c s1 = .ok ts) : tokens c (.new s1.pos .WithinContent) = .ok ts := by
  rw [← C09_restart c s1 hs]; exact ht

example : returns (scanN (exCfg b!"<p type=x>hi<b>") 7 (.new 0 .WithinContent))
    (fun s' => s'.state = .WithinContent ∧ s' ≠ .new s'.pos .WithinContent ∧
      returns (tokens (exCfg b!"<p type=x>hi<b>") s') (fun ts => ts.length = 4)) = true := by decide +kernel

end Html.Props
