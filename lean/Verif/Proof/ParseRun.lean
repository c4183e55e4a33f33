import Verif.Proof.ParseStep

/-! # The parser invariant along a run -/

namespace Html
open Spec

variable {c : Cfg} {void : List Str} {p : PState} {s s' : Sc}

/-- Tokens that the parser ignores. -/
def ignored : TT → Bool
  | .StartCommentTag | .Comment | .EndCommentTag | .StartDoctypeTag | .Doctype | .EndDoctypeTag
  | .Content | .Whitespace | .Unknown | .Script | .Styles | .EOS => true
  | _ => false

theorem parseStep_ignored (h : ignored s'.tokenType = true) : parseStep c void p s' = .ok p := by
  unfold parseStep
  revert h
  cases s'.tokenType <;> intro h <;> first | rfl | cases h

theorem PInv.content_step (hi : InContent c void p s.pos) (hx : StepContent c s s')
    (hp : s.pos < c.src.length) (hs : s.state = .WithinContent) :
    ∃ p', parseStep c void p s' = .ok p' ∧ PInv c void p' s' := by
  have hadv := (hx.advanced hp).2
  cases hx with
  | startComment h => exact ⟨p, rfl, hi.mono (Nat.le_of_lt hadv.2.1) hadv.2.2⟩
  | startDoctype h => exact ⟨p, rfl, hi.mono (Nat.le_of_lt hadv.2.1) hadv.2.2⟩
  | endTagOpen h => exact ⟨_, rfl, hi.endTag (at_prefix h)⟩
  | startTagOpen h => exact ⟨_, rfl, hi.startTag (rest_get h)⟩
  | content h =>
    refine ⟨p, rfl, ?_⟩
    unfold PInv
    simp only [fin, adv, hs]
    exact hi.mono (Nat.le_of_lt hadv.2.1) hadv.2.2

theorem afterStartTag_content (s : Sc) : afterStartTag s = .WithinContent ∨
    afterStartTag s = .WithinScriptContent ∨ afterStartTag s = .WithinStyleContent := by
  unfold afterStartTag
  repeat' split
  all_goals simp

theorem text_named {n : Nat} (h : tokenText c s' = .ok (bytesIn c.src s.pos s'.pos))
    (hn : s'.pos = s.pos + n) : tokenText c s' = .ok ((c.src.drop s.pos).take n) := by
  rw [h, hn, bytesIn_eq_take]

theorem PInv.tag_step (hi : InTag c void p s.pos) (hx : StepTag c s s')
    (hp : s.pos < c.src.length) (hs : s.state = .WithinTag)
    (ht : named s'.tokenType = true → tokenText c s' = .ok (bytesIn c.src s.pos s'.pos)) :
    ∃ p', parseStep c void p s' = .ok p' ∧ PInv c void p' s' := by
  have hle := (Step.tag _ hp hs hx).pos_le (Nat.le_of_lt hp)
  cases hx with
  | ws h =>
    refine ⟨p, rfl, ?_⟩
    unfold PInv
    simp only [fin, adv, hs]
    exact hi.mono hle.1 hle.2 (noSlash_of h noSlash_ws)
  | attrName hsp hw hb h =>
    have htx := text_named (ht rfl) rfl
    refine ⟨_, ?_, hi.attrName rfl h⟩
    simp only [parseStep, htx]
    rfl
  | selfClose s1 hp1 h =>
    have e := hp1.pos_eq
    obtain ⟨p', h1, h2⟩ := hi.selfClose (s := fin { adv s1 2 with state := .WithinContent } s.pos .StartTagSelfClose none)
      rfl (by simp [Sc.tokenEnd, fin, adv, e]) (at_prefix h)
    refine ⟨p', h1, ?_⟩
    show InContent c void p' (s1.pos + 2)
    rw [e]; exact h2
  | close s1 hp1 h =>
    have e := hp1.pos_eq
    obtain ⟨p', h1, h2⟩ := hi.close (s := fin { adv s1 1 with state := afterStartTag s } s.pos .StartTagClose none)
      rfl (by simp [Sc.tokenEnd, fin, adv, e]) (by simp [Sc.tokenLength, fin, adv, e]) (at_single (rest_get h))
    refine ⟨p', h1, ?_⟩
    unfold PInv
    rcases afterStartTag_content s with h3 | h3 | h3 <;> simp only [fin, adv, h3, e] <;> exact h2
  | pseudo s1 hp1 he h =>
    have e := hp1.pos_eq
    obtain ⟨p', h1, h2⟩ := hi.pseudo
      (s := fin { s1 with state := .WithinContent } s.pos .StartTagClose (some .closingBracketMissing))
      rfl (by simp [Sc.tokenEnd, fin, e]) (by simp [Sc.tokenLength, fin, e]) (rest_get h)
    refine ⟨p', h1, ?_⟩
    show InContent c void p' s1.pos
    rw [e]; exact h2
  | unknown s1 hp1 h0 h1 h2 h3 =>
    have e := hp1.pos_eq
    refine ⟨p, rfl, ?_⟩
    have es : s1.state = .WithinTag := by cases hp1 <;> exact hs
    unfold PInv
    simp only [fin, adv, es]
    refine hi.mono (by omega) hle.2 (fun hsl => ?_)
    rw [e, Nat.add_sub_cancel] at hsl
    obtain ⟨r, hr⟩ := hsl
    rw [rest, hr] at h1
    simp [List.isPrefixOf] at h1

theorem noName_of (h : elementNameLen c.uni (rest c s) = 0) :
    ∀ b, c.src[s.pos]? = some b → ¬ NameStartByte b := by
  intro b hb
  exact elementName_none h (by simpa [rest] using hb)

theorem PInv.step (hi : PInv c void p s) (hst : Step c s s') (hne : s'.tokenType ≠ .EOS)
    (ht : named s'.tokenType = true → tokenText c s' = .ok (bytesIn c.src s.pos s'.pos)) :
    ∃ p', parseStep c void p s' = .ok p' ∧ PInv c void p' s' := by
  have hpos : s.pos ≤ s'.pos ∧ s'.pos ≤ c.src.length := by
    refine hst.pos_le ?_
    rcases Nat.lt_or_ge c.src.length s.pos with h | h
    · exact absurd (hst.eos_iff.2 (by omega)) hne
    · exact h
  cases hst with
  | eos h => exact absurd rfl hne
  | content _ h hs hx =>
    unfold PInv at hi; simp only [hs] at hi
    exact content_step hi hx h hs
  | commentEnd h hs hx =>
    unfold PInv at hi; simp only [hs] at hi
    exact ⟨p, rfl, hi.mono hpos.1 hpos.2⟩
  | comment h hs hx h0 =>
    unfold PInv at hi; simp only [hs] at hi
    refine ⟨p, rfl, ?_⟩
    unfold PInv; simp only [fin, adv, hs]
    exact hi.mono hpos.1 hpos.2
  | doctypeEnd h hs hx =>
    unfold PInv at hi; simp only [hs] at hi
    exact ⟨p, rfl, hi.mono hpos.1 hpos.2⟩
  | doctype h hs hx h0 =>
    unfold PInv at hi; simp only [hs] at hi
    refine ⟨p, rfl, ?_⟩
    unfold PInv; simp only [fin, adv, hs]
    exact hi.mono hpos.1 hpos.2
  | endTagName h hs hb h0 =>
    unfold PInv at hi; simp only [hs] at hi
    have htx := text_named (ht rfl) rfl
    refine ⟨_, ?_, hi.name hb h0⟩
    simp only [parseStep, htx]
    rfl
  | endTagWs h hs hb hn h0 =>
    unfold PInv at hi; simp only [hs] at hi
    refine ⟨p, rfl, ?_⟩
    unfold PInv; simp only [fin, adv, hs]
    exact hi.ws'
  | endTagNoName h hs hb hn hw h0 =>
    unfold PInv at hi; simp only [hs] at hi
    exact ⟨p, rfl, (hi.noName (noName_of hn)).mono hpos.1 hpos.2⟩
  | endTagImmediate h hs hb hn hw h0 =>
    unfold PInv at hi; simp only [hs] at hi
    obtain ⟨e, raw, a1, a2, a3, a4, a5, a6, a7⟩ := hi.noName (noName_of hn)
    refine endTag_ok a1 a2 a7 a3 rfl rfl hpos.2 (by simp [fin, adv]; omega) (.inl ?_)
    simp only [Sc.tokenEnd, fin, adv, Nat.add_sub_cancel]
    exact ⟨at_single (rest_get h0), a5⟩
  | endTag _ h hs hx =>
    unfold PInv at hi; simp only [hs] at hi
    cases hx with
    | ws h0 =>
      refine ⟨p, rfl, ?_⟩
      unfold PInv; simp only [fin, adv, hs]
      exact hi.mono hpos.1 hpos.2
    | close h0 =>
      obtain ⟨e, raw, a1, a2, a3, a4, a5, a6, a7⟩ := hi
      refine endTag_ok a1 a2 a7 a3 rfl rfl hpos.2 (by simp [fin, adv]; omega) (.inl ?_)
      simp only [Sc.tokenEnd, fin, adv, Nat.add_sub_cancel]
      exact ⟨at_single (rest_get h0), a5⟩
    | pseudo he h0 =>
      obtain ⟨e, raw, a1, a2, a3, a4, a5, a6, a7⟩ := hi
      exact endTag_ok a1 a2 a7 a3 rfl rfl hpos.2 a4 (.inr ⟨rest_get h0, a5⟩)
    | unknown h0 h1 h2 =>
      exact ⟨p, rfl, hi.content hpos.1 hpos.2⟩
  | startTagName h hs hb h0 =>
    unfold PInv at hi; simp only [hs] at hi
    have htx := text_named (ht rfl) rfl
    refine ⟨_, ?_, hi.name hb h0⟩
    simp only [parseStep, htx]
    rfl
  | startTagWs h hs hb hn h0 =>
    unfold PInv at hi; simp only [hs] at hi
    refine ⟨p, rfl, ?_⟩
    unfold PInv; simp only [fin, adv, hs]
    exact hi.ws'
  | startTagNoName h hs hb hn hw h0 =>
    unfold PInv at hi; simp only [hs] at hi
    exact ⟨p, rfl, (hi.noName (noName_of hn)).mono hpos.1 hpos.2 (fun _ => .inl hi.tag)⟩
  | startTagImmediate h hs hb hn hw h0 =>
    unfold PInv at hi; simp only [hs] at hi
    exact (hi.noName (noName_of hn)).close rfl rfl (by simp [Sc.tokenLength, fin, adv])
      (at_single (rest_get h0))
  | tag _ h hs hx =>
    unfold PInv at hi; simp only [hs] at hi
    exact tag_step hi hx h hs ht
  | afterNameWs h hs h0 =>
    unfold PInv at hi; simp only [hs] at hi
    refine ⟨p, rfl, ?_⟩
    unfold PInv; simp only [fin, adv, hs]
    exact hi.ws
  | assign h hs hw h0 =>
    unfold PInv at hi; simp only [hs] at hi
    exact hi.assign rfl (rest_get h0)
  | afterNameTag _ h hs hw h0 hx =>
    unfold PInv at hi; simp only [hs] at hi
    exact tag_step (s := { s with state := .WithinTag }) hi.tag hx h rfl ht
  | valueWs h hs h0 =>
    unfold PInv at hi; simp only [hs] at hi
    exact ⟨p, rfl, hi.tag.mono hpos.1 hpos.2 (noSlash_of h0 noSlash_ws)⟩
  | valueUnquoted h hs hw hb h0 =>
    unfold PInv at hi; simp only [hs] at hi
    exact hi.value rfl (text_named (ht rfl) rfl) (unquotedFullLen_le _) (.inl (unquoted_spec h0))
  | valueQuoted h hs hw hb h0 q hq h1 =>
    unfold PInv at hi; simp only [hs] at hi
    have hle := quotedLen_le (q := q) (rest_ne_nil h)
    refine hi.value rfl (text_named (ht rfl) rfl) hle.2 (.inr (quoted_spec hq h1 ?_))
    intro he
    have := rest_length c s
    omega
  | valueTag _ h hs hw hb h0 h1 hx =>
    unfold PInv at hi; simp only [hs] at hi
    exact tag_step (s := { s with state := .WithinTag, hasSpace := false }) hi.tag hx h rfl ht
  | script q st h hs hp hl hst =>
    unfold PInv at hi; simp only [hs] at hi
    refine ⟨p, rfl, ?_⟩
    unfold PInv
    rcases hst with ⟨e, _⟩ | ⟨e, _⟩ <;> simp only [fin, e] <;> exact hi.mono hpos.1 hpos.2
  | scriptContent _ h hs hl hx =>
    unfold PInv at hi; simp only [hs] at hi
    exact content_step (s := { s with state := .WithinContent }) hi hx h rfl
  | style h hs hb h0 =>
    unfold PInv at hi; simp only [hs] at hi
    exact ⟨p, rfl, hi.mono hpos.1 hpos.2⟩
  | styleContent _ h hs hb h0 hx =>
    unfold PInv at hi; simp only [hs] at hi
    exact content_step (s := { s with state := .WithinContent }) hi hx h rfl

end Html
