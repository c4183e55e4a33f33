import Verif.Spec.Completion
import Verif.Proof.Pseudo
import Verif.Proof.Segments
import Verif.Proof.Hover
import Verif.Props.Document

/-! # The token loops of the completion services -/

namespace Html
open Spec Props

variable {c : Cfg} {void : List Str}

/-! ### Tokens from an element on -/

theorem Run.split {s s2 : Sc} {a b : List Tok} (h : Run c s (a ++ b) s2) :
    ∃ s1, Run c s a s1 ∧ Run c s1 b s2 := by
  induction a generalizing s with
  | nil => exact ⟨s, .nil s, h⟩
  | cons t a ih =>
    cases h with
    | cons h hne hr =>
      obtain ⟨s1, h1, h2⟩ := ih hr
      exact ⟨s1, .cons h hne h1, h2⟩

theorem scan_opens {a : Nat} (h : OpensTag c.src a) :
    ∃ s, scan c (.new a .WithinContent) = .ok s ∧ s.tok = ⟨.StartTagOpen, a, a + 1, none, .AfterOpeningStartTag⟩ := by
  have hlt : a < c.src.length := by
    have := h.opn
    rw [List.getElem?_eq_some_iff] at this
    exact this.1
  have hok : ∃ s, scan c (.new a .WithinContent) = .ok s := by
    rw [scan_eq_internalScan]
    unfold internalScan
    rw [eos_false (by exact hlt)]
    simp only [Bool.false_eq_true, if_false, Sc.new]
    unfold armContent
    simp only [peek, h.opn, if_true, adv]
    have ite_ok : ∀ (p : Prop) [Decidable p] (x y : R Sc), (p → ∃ s, x = .ok s) → (¬ p → ∃ s, y = .ok s) →
        ∃ s, (if p then x else y) = .ok s := by
      intro p _ x y hx hy
      by_cases hp : p
      · rw [if_pos hp]; exact hx hp
      · rw [if_neg hp]; exact hy hp
    refine ite_ok _ _ _ (fun h33 => ite_ok _ _ _ (fun _ => ⟨_, rfl⟩) fun _ => ?_)
      fun _ => ite_ok _ _ _ (fun _ => ⟨_, rfl⟩) fun _ => ⟨_, rfl⟩
    rw [sliceFrom_eq (isBoundary_of_get (by exact h33) (by decide))]
    exact ite_ok _ _ _ (fun _ => ⟨_, rfl⟩) fun _ => ite_ok _ _ _ (fun _ => ⟨_, rfl⟩) fun _ => ⟨_, rfl⟩
  obtain ⟨s, hs⟩ := hok
  refine ⟨s, hs, ?_⟩
  have hst := scan_step hs
  have hr : rest c (.new a .WithinContent) = c.src.drop a := rfl
  have hh : (rest c (.new a .WithinContent)).head? = some 60 := by
    rw [hr]; simpa using h.opn
  cases hst with
  | eos h0 => exact absurd h0 (by simp only [Sc.new]; omega)
  | content _ h0 hs hx =>
    cases hx with
    | startComment h1 => rw [hr, h.notComment] at h1; cases h1
    | startDoctype h1 _ => rw [hr, h.notDoctype] at h1; cases h1
    | endTagOpen h1 => rw [hr, h.notEnd] at h1; cases h1
    | startTagOpen => rfl
    | content h1 => exact absurd hh h1
  | _ => simp_all [Sc.new]

/-- `l` are the tokens from `s` on up to the end of the text. -/
def Stream (c : Cfg) (s : Sc) (l : List Tok) : Prop :=
  ∃ s2 s3, Run c s l s2 ∧ scan c s2 = .ok s3 ∧ s3.tokenType = .EOS

theorem Stream.cons {s : Sc} {t : Tok} {l : List Tok} (h : Stream c s (t :: l)) :
    ∃ s1, scan c s = .ok s1 ∧ s1.tokenType ≠ .EOS ∧ s1.tok = t ∧ Stream c s1 l := by
  obtain ⟨s2, s3, hr, h3⟩ := h
  cases hr with
  | cons h hne hr => exact ⟨_, h, hne, rfl, s2, s3, hr, h3⟩

theorem Stream.nil {s : Sc} (h : Stream c s []) : ∃ s1, scan c s = .ok s1 ∧ s1.tokenType = .EOS := by
  obtain ⟨s2, s3, hr, h3⟩ := h
  cases hr with
  | nil => exact ⟨s3, h3⟩

theorem tokensF_split {f : Nat} {s : Sc} {a b : List Tok} (h : tokensF c f s = .ok (a ++ b)) :
    ∃ s1, Run c s a s1 ∧ tokensF c (f - a.length) s1 = .ok b := by
  induction a generalizing s f with
  | nil => exact ⟨s, .nil s, h⟩
  | cons t a ih =>
    cases f with
    | zero => cases h
    | succ f =>
      unfold tokensF at h
      obtain ⟨s1, h1, h⟩ := bind_ok h
      split at h
      · cases h
      · rename_i hne
        obtain ⟨ts, h2, h⟩ := bind_ok h
        cases h
        obtain ⟨s2, i1, i2⟩ := ih h2
        refine ⟨s2, .cons h1 hne i1, ?_⟩
        rw [List.length_cons, Nat.add_sub_add_right]
        exact i2

/-- A scanner that starts at the `<` of an element reads the same tokens as the parser. -/
theorem restart {s : Sc} {ts pre post : List Tok} {t : Tok} (h : tokens c s = .ok ts)
    (hts : ts = pre ++ t :: post) (ht : t.type = .StartTagOpen) :
    Stream c (.new t.offset .WithinContent) (t :: post) ∧ OpensTag c.src t.offset ∧ t.stop = t.offset + 1 := by
  unfold tokens at h
  rw [hts] at h
  obtain ⟨s0, h1, h2⟩ := tokensF_split h
  generalize 2 * (c.src.length - s.pos) + 2 - pre.length = f at h2
  cases f with
  | zero => cases h2
  | succ f =>
    unfold tokensF at h2
    obtain ⟨s1, h3, h2⟩ := bind_ok h2
    split at h2
    · cases h2
    · rename_i hne
      obtain ⟨ts', h4, h2⟩ := bind_ok h2
      cases h2
      have hst := scan_step h3
      obtain ⟨i1, i2, i3⟩ := (hst.startFacts hne).enter ht
      have hoff : s1.tok.offset = s0.pos := hst.offset_eq
      rw [hoff]
      obtain ⟨s', h5, h6⟩ := scan_opens i1
      have e1 : s'.tokenType = .StartTagOpen := congrArg Tok.type h6
      have e2 : s'.state = .AfterOpeningStartTag := congrArg Tok.state h6
      have e3 : s'.pos = s0.pos + 1 := congrArg Tok.stop h6
      have e5 : s1.tok = s'.tok := by
        have herr : s1.tok.error = none := by
          cases hst with
          | content _ h0 hs hx => cases hx <;> first | rfl | (simp [fin, Sc.tok] at ht)
          | scriptContent _ h0 hs hl hx => cases hx <;> first | rfl | (simp [fin, Sc.tok] at ht)
          | styleContent _ h0 hs hl hb hx => cases hx <;> first | rfl | (simp [fin, Sc.tok] at ht)
          | tag _ h hs hx => cases hx <;> (simp [fin, Sc.tok] at ht)
          | afterNameTag _ h hs hw h0 hx => cases hx <;> (simp [fin, Sc.tok] at ht)
          | valueTag _ h hs hw hb h0 h1 hx => cases hx <;> (simp [fin, Sc.tok] at ht)
          | endTag _ h hs hx => cases hx <;> (simp [fin, Sc.tok] at ht)
          | _ => simp [fin, Sc.tok] at ht
        rw [h6]
        have a1 : s1.tok.type = .StartTagOpen := ht
        have a2 : s1.tok.state = .AfterOpeningStartTag := i2
        have a3 : s1.tok.stop = s0.pos + 1 := i3
        rw [← a1, ← a2, ← a3, ← hoff, ← herr]
      have e4 : Eqv c s1 s' := ⟨by rw [i2, e2], by rw [i3, e3], by rw [Hid, i2]; simp⟩
      rw [tokensF_eqv e4] at h4
      obtain ⟨s2, s3, h7, h8, h9⟩ := tokensF_run h4
      refine ⟨⟨s2, s3, ?_, h8, h9⟩, i1, i3⟩
      rw [e5]
      exact .cons h5 (by rw [e1]; decide) h7

/-! ### Looking for a token -/

theorem Run.ge {s s2 : Sc} {l : List Tok} (h : Run c s l s2) {t : Tok} (ht : t ∈ l) :
    s.pos ≤ t.offset ∧ t.offset ≤ t.stop := by
  induction h with
  | nil s => cases ht
  | @cons s s1 s2 ts h hne hr ih =>
    have hst := scan_step h
    have hsl : s.pos ≤ c.src.length := by
      rcases Nat.lt_or_ge c.src.length s.pos with h | h
      · exact absurd (hst.eos_iff.2 (by omega)) hne
      · exact h
    have hp := (hst.pos_le hsl).1
    have ho : s1.tok.offset = s.pos := hst.offset_eq
    rcases List.mem_cons.1 ht with rfl | ht
    · exact ⟨by omega, by rw [ho]; exact hp⟩
    · have := ih ht; omega

theorem Stream.ge {s : Sc} {l : List Tok} (h : Stream c s l) {t : Tok} (ht : t ∈ l) :
    s.pos ≤ t.offset ∧ t.offset ≤ t.stop := by
  obtain ⟨s2, _, hr, _⟩ := h
  exact hr.ge ht

theorem any_false {p : Tok → Bool} {l : List Tok} (h : ∀ t ∈ l, p t = false) : l.any p = false := by
  rw [Bool.eq_false_iff]
  intro hx
  obtain ⟨t, h1, h2⟩ := List.any_eq_true.1 hx
  rw [h t h1] at h2; cases h2

theorem endsAt_eq {k : TT} {o : Nat} (hk : k ≠ .EOS ∧ k ≠ .Unknown) {l : List Tok} :
    ∀ {s0 : Sc} {f : Nat}, Stream c s0 l → NoCut l o → l.length < f →
    ∃ s, scan c.plain s0 = .ok s ∧ endsAt c.plain k o f s =
      .ok (l.any (fun t => t.type = k ∧ t.stop = o ∧ t.offset < t.stop)) := by
  induction l with
  | nil =>
    intro s0 f h _ hf
    obtain ⟨s1, h1, h2⟩ := h.nil
    obtain ⟨f, rfl⟩ : ∃ g, f = g + 1 := ⟨f - 1, by simp at hf; omega⟩
    rcases scan_plain h1 with ⟨h3, _⟩ | ⟨_, h3, _⟩
    · exact ⟨s1, h3, by simp [endsAt, h2]⟩
    · rw [h2] at h3; simp at h3
  | cons t l ih =>
    intro s0 f h hc hf
    obtain ⟨s1, h1, hne, rfl, hs⟩ := h.cons
    obtain ⟨f, rfl⟩ : ∃ g, f = g + 1 := ⟨f - 1, by simp at hf; omega⟩
    have hoff : s1.tok.offset = s0.pos := (scan_step h1).offset_eq
    have hstop : s1.tok.stop = s1.pos := rfl
    have hty : s1.tok.type = s1.tokenType := rfl
    rcases scan_plain h1 with ⟨h3, h4⟩ | ⟨hz, h3, s2, h4, h5, h6⟩
    · have hlt : s0.pos < s1.pos := h4.resolve_right hne
      refine ⟨s1, h3, ?_⟩
      unfold endsAt
      by_cases ho : s1.pos ≤ o
      · rw [if_pos ⟨hne, ho⟩]
        by_cases hm : s1.tokenType = k ∧ s1.pos = o
        · rw [if_pos hm, List.any_cons, hoff, hstop, hty]
          simp [hm, hm.2 ▸ hlt]
        · rw [if_neg hm]
          obtain ⟨s2, i1, i2⟩ := ih hs (fun t ht => hc t (by simp [ht])) (by simp at hf; omega)
          rw [i1, List.any_cons, hty, hstop]
          have : decide (s1.tokenType = k ∧ s1.pos = o ∧ s1.tok.offset < s1.pos) = false := by
            rw [decide_eq_false_iff_not]
            exact fun hx => hm ⟨hx.1, hx.2.1⟩
          rw [this, Bool.false_or]
          exact i2
      · rw [if_neg (fun hx => ho hx.2)]
        rw [any_false]
        intro t ht
        rw [decide_eq_false_iff_not]
        rintro ⟨_, hx, _⟩
        rcases List.mem_cons.1 ht with rfl | ht
        · omega
        · have := hs.ge ht; omega
    · refine ⟨s2, h4, ?_⟩
      have ho : o ≤ s0.pos := by
        rcases Nat.lt_or_ge s1.pos o with hlt | hge
        · have := hc s1.tok (by simp) hlt
          omega
        · omega
      unfold endsAt
      rw [if_neg (by intro hx; omega), any_false]
      intro t ht
      rw [decide_eq_false_iff_not]
      rintro ⟨_, hx, hy⟩
      rcases List.mem_cons.1 ht with rfl | ht
      · omega
      · have := hs.ge ht; omega

/-! ### Behind an attribute name -/

/-- No value begins at `o`. -/
def noValue (src : Str) (o : Nat) : Bool :=
  match src[o]? with
  | none => true
  | some b => isWs b || b == 62

theorem rest_head (c : Cfg) (s : Sc) : (rest c s).head? = c.src[s.pos]? := by
  rw [← peek_eq_head]; rfl

theorem wsLen_pos_iff {c : Cfg} {s : Sc} : 0 < wsLen (rest c s) ↔ ∃ b, c.src[s.pos]? = some b ∧ isWs b = true := by
  rw [← rest_head]
  constructor
  · intro h
    cases hb : (rest c s).head? with
    | none =>
      rw [List.head?_eq_none_iff] at hb
      rw [hb] at h; simp [wsLen] at h
    | some b =>
      refine ⟨b, rfl, ?_⟩
      cases hw : isWs b with
      | true => rfl
      | false =>
        have := (wsLen_zero_iff (s := rest c s)).2 (fun b' hb' => by rw [hb] at hb'; cases hb'; exact hw)
        omega
  · rintro ⟨b, h1, h2⟩
    rcases Nat.eq_zero_or_pos (wsLen (rest c s)) with h0 | h0
    · have := wsLen_zero_iff.1 h0 b h1
      rw [h2] at this; cases this
    · exact h0

theorem Step.name_state {s s' : Sc} (h : Step c s s') (ht : s'.tokenType = .AttributeName) :
    s'.state = .AfterAttributeName := by
  cases h with
  | content _ h hs hx => cases hx <;> simp_all [fin, adv]
  | scriptContent _ h hs hl hx => cases hx <;> simp_all [fin, adv]
  | styleContent _ h hs hb h0 hx => cases hx <;> simp_all [fin, adv]
  | tag _ h hs hx => cases hx <;> simp_all [fin, adv]
  | afterNameTag _ h hs hw h0 hx => cases hx <;> simp_all [fin, adv]
  | valueTag _ h hs hw hb h0 h1 hx => cases hx <;> simp_all [fin, adv]
  | endTag _ h hs hx => cases hx <;> simp_all [fin, adv]
  | _ => simp_all [fin, adv]

theorem Step.assign_iff {s s' : Sc} (h : Step c s s') (hs : s.state = .AfterAttributeName) :
    (s'.tokenType = .DelimiterAssign ↔ c.src[s.pos]? = some 61) ∧
    (s'.tokenType = .DelimiterAssign → s'.state = .BeforeAttributeValue ∧ s'.pos = s.pos + 1) := by
  cases h with
  | eos h =>
    have : c.src[s.pos]? = none := by simp; omega
    simp [fin, this]
  | afterNameWs h hs' h0 =>
    obtain ⟨b, h1, h2⟩ := wsLen_pos_iff.1 h0
    refine ⟨⟨by simp [fin, adv], fun h => ?_⟩, by simp [fin, adv]⟩
    rw [h] at h1; cases h1; cases h2
  | assign h hs' hw h0 =>
    rw [rest_head] at h0
    simp [fin, adv, h0]
  | afterNameTag _ h hs' hw h0 hx =>
    rw [rest_head] at h0
    have : s'.tokenType ≠ .DelimiterAssign := by cases hx <;> simp [fin, adv]
    simp [h0, this]
  | _ => simp_all

theorem Step.value_iff {s s' : Sc} (h : Step c s s') (hs : s.state = .BeforeAttributeValue)
    (hp : c.emitPseudo = false) :
    (s'.tokenType = .Unknown ∨ s'.tokenType = .AttributeValue) ↔ noValue c.src s.pos = false := by
  have hn : ∀ b, c.src[s.pos]? = some b → noValue c.src s.pos = (isWs b || b == 62) := by
    intro b hb; simp [noValue, hb]
  cases h with
  | eos h =>
    have : c.src[s.pos]? = none := by simp; omega
    simp [fin, noValue, this]
  | valueWs h hs' h0 =>
    obtain ⟨b, h1, h2⟩ := wsLen_pos_iff.1 h0
    rw [hn b h1, h2]
    simp [fin, adv]
  | valueUnquoted h hs' hw hb h0 =>
    obtain ⟨b, t, he, hc⟩ := firstRunLen_head h0
    have h1 : c.src[s.pos]? = some b := by rw [← rest_head, he]; rfl
    have h2 := wsLen_zero_iff.1 hw b (by rw [he]; rfl)
    rw [hn b h1, h2]
    have : b ≠ 62 := by
      rintro rfl
      simp [codePoint, unquotedChar] at hc
    simp [fin, adv, this]
  | valueQuoted h hs' hw hb h0 q hq h1 =>
    rw [rest_head] at h1
    rw [hn q h1]
    rcases hq with rfl | rfl <;> simp [fin, adv, isWs]
  | valueTag _ h hs' hw hb h0 h1 hx =>
    have hlt : c.src[s.pos]? = some (c.src[s.pos]'h) := by simp [h]
    have h2 := wsLen_zero_iff.1 hw _ (by rw [rest_head]; exact hlt)
    rw [hn _ hlt, h2]
    have hr : (rest c s).head? = some (c.src[s.pos]'h) := by
      rw [rest_head]; exact hlt
    generalize c.src[s.pos]'h = b at *
    cases hx with
    | ws h =>
      have h : 0 < wsLen (rest c s) := h
      omega
    | attrName hsp => cases hsp
    | selfClose s1 hp1 h =>
      exfalso
      have h : [47, 62].isPrefixOf (rest c s) = true := h
      obtain ⟨t, ht⟩ := head_cons hr
      rw [ht] at h h0
      simp only [List.isPrefixOf, Bool.and_eq_true, beq_iff_eq] at h
      obtain ⟨h, _⟩ := h
      subst h
      simp [unquotedLen, firstRunLen, codePoint, unquotedChar] at h0
      simp [isSpaceCP] at h0
    | close s1 hp1 h =>
      have h : (rest c s).head? = some 62 := h
      rw [hr] at h
      cases h
      simp [fin, adv]
    | pseudo s1 hp1 he => rw [hp] at he; cases he
    | unknown s1 hp1 _ _ h3 _ =>
      have h3 : (rest c s).head? ≠ some 62 := h3
      rw [hr] at h3
      have : b ≠ 62 := fun h => h3 (by rw [h])
      simp [fin, adv, this]
  | _ => simp_all

theorem quoteLoop_eq {o : Nat} {v : Str} (ho : 0 < o) {l : List Tok} :
    ∀ {s0 : Sc} {f : Nat}, Stream c s0 l → NoCut l o → l.length < f →
    ∃ s, scan c.plain s0 = .ok s ∧ quoteLoop c.plain o v f s =
      .ok (if l.any (fun t => t.type = .AttributeName ∧ t.stop + 1 = o ∧ c.src[t.stop]? = some 61 ∧
        noValue c.src o = true) then some v else none) := by
  induction l with
  | nil =>
    intro s0 f h _ hf
    obtain ⟨s1, h1, h2⟩ := h.nil
    obtain ⟨f, rfl⟩ : ∃ g, f = g + 1 := ⟨f - 1, by simp at hf; omega⟩
    rcases scan_plain h1 with ⟨h3, _⟩ | ⟨_, h3, _⟩
    · exact ⟨s1, h3, by simp [quoteLoop, h2]⟩
    · rw [h2] at h3; simp at h3
  | cons t l ih =>
    intro s0 f h hc hf
    obtain ⟨s1, h1, hne, rfl, hs⟩ := h.cons
    obtain ⟨f, rfl⟩ : ∃ g, f = g + 1 := ⟨f - 1, by simp at hf; omega⟩
    have hoff : s1.tok.offset = s0.pos := (scan_step h1).offset_eq
    have hstop : s1.tok.stop = s1.pos := rfl
    have hty : s1.tok.type = s1.tokenType := rfl
    have late : ∀ {s : Sc}, Stream c s l → o ≤ s.pos + 1 →
        (∀ t ∈ l, t.type = .AttributeName → t.offset < t.stop) →
        l.any (fun t => t.type = .AttributeName ∧ t.stop + 1 = o ∧ c.src[t.stop]? = some 61 ∧
        noValue c.src o = true) = false := by
      intro s hs hp hlt
      refine any_false fun t ht => ?_
      rw [decide_eq_false_iff_not]
      rintro ⟨hx, hy, _⟩
      have := hs.ge ht
      have := hlt t ht hx
      omega
    have names : ∀ t ∈ l, t.type = .AttributeName → t.offset < t.stop := by
      intro t ht hx
      obtain ⟨s2, s3, hr, _⟩ := hs
      obtain ⟨a, b, hst, hne, rfl⟩ := hr.mem ht
      have hok := hst.textOK hne
      unfold TextOK at hok
      simp only [hx] at hok
      have h2 := hok.1
      rcases Nat.lt_or_ge b.tok.offset b.tok.stop with h | h
      · exact h
      · exact absurd (by unfold text; exact List.drop_eq_nil_of_le (by simp; omega)) h2
    rcases scan_plain h1 with ⟨h3, h4⟩ | ⟨hz, h3, s2, h4, h5, h6⟩
    · have hlt : s0.pos < s1.pos := h4.resolve_right hne
      refine ⟨s1, h3, ?_⟩
      unfold quoteLoop
      by_cases hle : s1.pos ≤ o
      · rw [if_pos ⟨hne, hle⟩]
        by_cases hm : s1.tokenType = .AttributeName ∧ s1.pos = o - 1
        · rw [if_pos hm, List.any_cons, late hs (by omega) names, Bool.or_false]
          have hst1 := (scan_step h1).name_state hm.1
          obtain ⟨x1, hx1⟩ : ∃ x1, scan c s1 = .ok x1 := by
            cases l with
            | nil => obtain ⟨x, hx, _⟩ := hs.nil; exact ⟨x, hx⟩
            | cons t' l => obtain ⟨x, hx, _⟩ := hs.cons; exact ⟨x, hx⟩
          have pl : ∃ x2, scan c.plain s1 = .ok x2 := by
            rcases scan_plain hx1 with ⟨h, _⟩ | ⟨_, _, x, h, _⟩ <;> exact ⟨_, h⟩
          obtain ⟨x2, hx2⟩ := pl
          obtain ⟨a1, a2⟩ := (scan_step hx2).assign_iff hst1
          have esrc : c.plain.src = c.src := rfl
          rw [esrc] at a1
          have e1 : s1.pos + 1 = o := by omega
          rw [hx2, hty, hstop]
          simp only [bind, Except.bind]
          by_cases h61 : c.src[s1.pos]? = some 61
          · have hd := a1.2 h61
            obtain ⟨b1, b2⟩ := a2 hd
            rw [if_neg (by simp [hd])]
            -- the token behind the `=`
            have hsame : scan c s1 = .ok x2 := by
              rcases scan_plain hx1 with ⟨h, _⟩ | ⟨_, _, x, h, hu, _⟩
              · rw [hx2] at h; cases h; exact hx1
              · rw [hx2] at h; cases h; rw [hd] at hu; cases hu
            have hs2 : ∃ x3, scan c x2 = .ok x3 := by
              cases l with
              | nil =>
                obtain ⟨x, hx, he⟩ := hs.nil
                rw [hsame] at hx; cases hx; rw [hd] at he; cases he
              | cons t' l =>
                obtain ⟨x, hx, _, _, hs'⟩ := hs.cons
                rw [hsame] at hx; cases hx
                cases l with
                | nil => obtain ⟨x, hx, _⟩ := hs'.nil; exact ⟨x, hx⟩
                | cons t' l => obtain ⟨x, hx, _⟩ := hs'.cons; exact ⟨x, hx⟩
            obtain ⟨x3, hx3⟩ := hs2
            have pl : ∃ x4, scan c.plain x2 = .ok x4 := by
              rcases scan_plain hx3 with ⟨h, _⟩ | ⟨_, _, x, h, _⟩ <;> exact ⟨_, h⟩
            obtain ⟨x4, hx4⟩ := pl
            have hv := (scan_step hx4).value_iff b1 rfl
            rw [esrc, b2, e1] at hv
            rw [hx4]
            simp only
            by_cases hnv : noValue c.src o = true
            · rw [if_neg (by rw [hv, hnv]; simp)]
              simp [hm.1, e1, h61, hnv]
            · rw [if_pos (hv.2 (by simpa using hnv))]
              simp [hnv]
          · rw [if_pos (by rw [ne_eq, a1]; exact h61)]
            simp [h61]
        · rw [if_neg hm]
          obtain ⟨s2, i1, i2⟩ := ih hs (fun t ht => hc t (by simp [ht])) (by simp at hf; omega)
          rw [i1, List.any_cons, hty, hstop]
          have : decide (s1.tokenType = .AttributeName ∧ s1.pos + 1 = o ∧ c.src[s1.pos]? = some 61 ∧
              noValue c.src o = true) = false := by
            rw [decide_eq_false_iff_not]
            exact fun hx => hm ⟨hx.1, by omega⟩
          rw [this, Bool.false_or]
          exact i2
      · rw [if_neg (fun hx => hle hx.2), List.any_cons, late hs (by omega) names]
        have : decide (s1.tok.type = .AttributeName ∧ s1.tok.stop + 1 = o ∧ c.src[s1.tok.stop]? = some 61 ∧
            noValue c.src o = true) = false := by
          rw [decide_eq_false_iff_not]
          rintro ⟨_, hx, _⟩; omega
        rw [this]; rfl
    · refine ⟨s2, h4, ?_⟩
      have hge : o ≤ s0.pos := by
        rcases Nat.lt_or_ge s1.pos o with hlt | hge
        · have := hc s1.tok (by simp) hlt
          omega
        · omega
      unfold quoteLoop
      rw [if_neg (by intro hx; omega), List.any_cons, late hs (by omega) names]
      have : decide (s1.tok.type = .AttributeName ∧ s1.tok.stop + 1 = o ∧ c.src[s1.tok.stop]? = some 61 ∧
          noValue c.src o = true) = false := by
        rw [decide_eq_false_iff_not]
        rintro ⟨_, hx, _⟩; omega
      rw [this]; rfl

end Html
