import Verif.Proof.StepFacts

/-! # Runs of the scanner, fuel, and the kinds of panics -/

namespace Html

/-- A sequence of scans none of which returned EOS, with the observed tokens. -/
inductive Run (c : Cfg) : Sc → List Tok → Sc → Prop
  | nil (s : Sc) : Run c s [] s
  | cons {s s1 s2 : Sc} {ts : List Tok} (h : scan c s = .ok s1) (hne : s1.tokenType ≠ .EOS)
      (hr : Run c s1 ts s2) : Run c s (s1.tok :: ts) s2

theorem tokensF_run {c : Cfg} {f : Nat} {s : Sc} {ts : List Tok} (h : tokensF c f s = .ok ts) :
    ∃ s2 s3, Run c s ts s2 ∧ scan c s2 = .ok s3 ∧ s3.tokenType = .EOS := by
  induction f generalizing s ts with
  | zero => cases h
  | succ f ih =>
    unfold tokensF at h
    obtain ⟨s1, h1, h⟩ := bind_ok h
    split at h
    · cases h; exact ⟨s, s1, .nil s, h1, by assumption⟩
    · rename_i hne
      obtain ⟨ts', h2, h⟩ := bind_ok h
      cases h
      obtain ⟨s2, s3, hr, h3⟩ := ih h2
      exact ⟨s2, s3, .cons h1 hne hr, h3⟩

/-! ### Termination measure -/

/-- Upper bound for the number of tokens still to come. -/
def mu (c : Cfg) (s : Sc) : Nat :=
  if s.state = .WithinContent then 2 * (c.src.length - s.pos) - 1 else 2 * (c.src.length - s.pos)

theorem Step.mu_lt {c : Cfg} {s s' : Sc} (h : Step c s s') (hne : s'.tokenType ≠ .EOS) :
    mu c s' < mu c s := by
  obtain ⟨_, h1 | ⟨hp, h1 | h1⟩⟩ := h.facts
  · exact absurd (by rw [h1.2]; rfl) hne
  · obtain ⟨_, h2, h3⟩ := h1
    unfold mu
    split <;> split <;> omega
  · obtain ⟨_, h2, h3, _, _, h4⟩ := h1
    have : s.state ≠ .WithinContent := by
      rcases h4 with ⟨_, h4 | h4 | h4⟩ | ⟨_, h4⟩ <;> rw [h4] <;> decide
    unfold mu
    rw [if_pos h3, if_neg this, h2]; omega

theorem mu_le (c : Cfg) (s : Sc) : mu c s ≤ 2 * (c.src.length - s.pos) := by
  unfold mu; split <;> omega

/-! ### Only slices can panic -/

theorem bind_err {α β : Type} {x : R α} {f : α → R β} {e : Panic} (h : (x >>= f) = .error e) :
    x = .error e ∨ ∃ a, x = .ok a ∧ f a = .error e := by
  cases x with
  | error e' => left; simpa [bind, Except.bind] using h
  | ok a => right; exact ⟨a, rfl, h⟩

theorem scriptLoop_err {c : Cfg} {f st pos : Nat} {e : Panic} (hf : c.src.length - pos < f)
    (h : scriptLoop c f st pos = .error e) : e = .slice := by
  induction f generalizing st pos with
  | zero => omega
  | succ f ih =>
    unfold scriptLoop at h
    split at h
    · cases h
    · rename_i hlt
      rcases bind_err h with h | ⟨r, hr, h⟩
      · exact (sliceStr_err h).1
      · obtain ⟨_, _, _, _, hr⟩ := sliceStr_ok hr
        rw [bytesIn_to_end] at hr
        subst hr
        split at h
        · cases h
        · rename_i k i n hfd
          obtain ⟨hn, hin, hma⟩ := scriptFind_le hfd
          simp at hin
          have hp' : c.src.length - (pos + i + n) < f := by omega
          split at h
          · exact ih hp' h
          · exact ih hp' h
          · exact ih hp' h
          · split at h
            · exact ih hp' h
            · rcases bind_err h with h | ⟨q, hq, h⟩
              · simp [subU] at h
              · cases h

theorem sliceFrom_err {c : Cfg} {s : Sc} {e : Panic} (h : sliceFrom c s = .error e) :
    e = .slice ∧ (s.pos ≤ c.src.length → isBoundary c.src s.pos = false) := by
  obtain ⟨h1, h2⟩ := sliceStr_err h
  refine ⟨h1, fun hp => ?_⟩
  rw [← Bool.not_eq_true]
  exact fun hb => h2 ⟨hp, hb, isBoundary_length _⟩

theorem armContent_err {c : Cfg} {s : Sc} {o : Nat} {e : Panic} (h : armContent c s o = .error e) :
    e = .slice ∧ (rest c s).head? = some 60 ∧ ((rest c s).drop 1).head? = some 33 ∧
      isBoundary c.src (s.pos + 1) = false := by
  unfold armContent at h
  simp only [peek_eq_head, rest_adv] at h
  split at h
  · rename_i h60
    split at h
    · rename_i h33
      split at h
      · cases h
      · rcases bind_err h with h | ⟨r, hr, h⟩
        · have := sliceFrom_err h
          refine ⟨this.1, h60, h33, this.2 ?_⟩
          obtain ⟨t, ht⟩ := head_cons h60
          have hl := rest_length c s
          rw [ht] at hl; simp only [List.length_cons] at hl
          simp only [adv]; omega
        · split at h
          · cases h
          · split at h <;> cases h
    · split at h <;> cases h
  · cases h

theorem armEndTag_noerr {c : Cfg} {s : Sc} {o : Nat} {e : Panic} (h : armEndTag c s o = .error e) :
    False := by
  unfold armEndTag at h
  simp only at h
  split at h
  · cases h
  · split at h
    · cases h
    · split at h <;> cases h

theorem armTagRest_noerr {c : Cfg} {s : Sc} {o : Nat} {e : Panic} (h : armTagRest c s o = .error e) :
    False := by
  unfold armTagRest at h
  simp only at h
  split at h
  · cases h
  · split at h
    · cases h
    · split at h <;> cases h

theorem armTag_err {c : Cfg} {s : Sc} {o : Nat} {e : Panic} (hp : s.pos < c.src.length)
    (h : armTag c s o = .error e) :
    e = .slice ∧ s.hasSpace = true ∧ isBoundary c.src s.pos = false := by
  unfold armTag at h
  simp only at h
  split at h
  · cases h
  · split at h
    · rename_i hs
      rcases bind_err h with h | ⟨⟨n, s1⟩, hn, h⟩
      · unfold nextAttributeName at h
        rcases bind_err h with h | ⟨r, hr, h⟩
        · have := sliceFrom_err h; exact ⟨this.1, hs, this.2 (Nat.le_of_lt hp)⟩
        · simp only at h; split at h <;> cases h
      · simp only at h
        split at h
        · cases h
        · split at h
          · exact (armTagRest_noerr h).elim
          · exact (armTagRest_noerr h).elim
    · exact (armTagRest_noerr h).elim

theorem internalTag_err {c : Cfg} {s : Sc} {e : Panic} (hp : s.pos < c.src.length)
    (h : internalTag c s = .error e) :
    e = .slice ∧ s.hasSpace = true ∧ isBoundary c.src s.pos = false := by
  rw [internalTag_eq hp] at h; exact armTag_err hp h

theorem internalEndTag_noerr {c : Cfg} {s : Sc} {e : Panic} (h : internalEndTag c s = .error e) :
    False := by
  unfold internalEndTag at h; split at h
  · cases h
  · exact armEndTag_noerr h

theorem internalContent_err {c : Cfg} {s : Sc} {e : Panic} (h : internalContent c s = .error e) :
    e = .slice ∧ (rest c s).head? = some 60 ∧ ((rest c s).drop 1).head? = some 33 ∧
      isBoundary c.src (s.pos + 1) = false := by
  unfold internalContent at h; split at h
  · cases h
  · exact armContent_err h

theorem nextElementName_err {c : Cfg} {s : Sc} {e : Panic} (hp : s.pos < c.src.length)
    (h : nextElementName c s = .error e) : e = .slice ∧ isBoundary c.src s.pos = false := by
  unfold nextElementName at h
  rcases bind_err h with h | ⟨r, hr, h⟩
  · have := sliceFrom_err h; exact ⟨this.1, this.2 (Nat.le_of_lt hp)⟩
  · simp only at h; split at h <;> cases h

/-- The quoted value whose text cannot be sliced. -/
def BadQuoted (c : Cfg) (s : Sc) : Prop :=
  s.lastAttr = some b!"type" ∧ isBoundary c.src s.pos = true ∧
  ∃ q, (q = 39 ∨ q = 34) ∧ (rest c s).head? = some q ∧
    ∃ e, sliceStr c.src (min (s.pos + 1) (s.pos + quotedLen q (rest c s) - 1))
      (max (s.pos + 1) (s.pos + quotedLen q (rest c s) - 1)) = .error e

/-- The adv of the quoted branch (used twice). -/
theorem quoted_pos {c : Cfg} {s : Sc} {ch : Nat} (hch : (rest c s).head? = some ch) :
    (if (rest c (adv (adv s 1) (untilByte ch (rest c (adv s 1))))).head? = some ch
      then adv (adv (adv s 1) (untilByte ch (rest c (adv s 1)))) 1
      else adv (adv s 1) (untilByte ch (rest c (adv s 1)))) = adv s (quotedLen ch (rest c s)) := by
  obtain ⟨t, ht⟩ := head_cons hch
  have hul := untilByte_le ch t
  have hr1 : rest c (adv s 1) = t := by rw [rest_adv, ht]; rfl
  rw [rest_adv, hr1]
  unfold quotedLen
  rw [ht]
  simp only [List.drop_one, List.tail_cons, List.length_cons, List.head?_drop]
  by_cases hlt : untilByte ch t < t.length
  · have := untilByte_get hlt
    rw [if_pos this, if_pos (by omega)]
    simp only [adv, Sc.mk.injEq, true_and, and_true]; omega
  · have hnone : t[untilByte ch t]? = none := by
      rw [List.getElem?_eq_none_iff]; omega
    rw [hnone, if_neg (by simp), if_neg (by omega)]
    simp only [adv, Sc.mk.injEq, true_and, and_true]; omega

theorem armQuotedValue_err {c : Cfg} {s : Sc} {e : Panic} (hp : s.pos < c.src.length)
    (hb : isBoundary c.src s.pos = true)
    (h : armQuotedValue c s s.pos = .error e) : e = .slice ∧ BadQuoted c s := by
  unfold armQuotedValue at h
  simp only [peek_eq_head] at h
  split at h
  · rename_i ch hch
    split at h
    · rename_i hq
      rw [quoted_pos hch] at h
      rcases bind_err h with h | ⟨a, ha, h⟩
      · unfold rememberQuoted at h
        split at h
        · rename_i hty
          have hql := (quotedLen_le (q := ch) (rest_ne_nil hp)).1
          have hsub : subU (adv s (quotedLen ch (rest c s))).pos 1 =
              .ok (s.pos + quotedLen ch (rest c s) - 1) := by
            simp only [adv]; unfold subU; rw [if_pos (by omega)]
          rw [hsub] at h
          simp only [bind, Except.bind] at h
          split at h
          · rename_i e' he'
            cases h
            split at he'
            · refine ⟨(sliceStr_err he').1, hty, hb, ch, hq, hch, e, ?_⟩
              rw [Nat.min_eq_right (by omega), Nat.max_eq_left (by omega)]; exact he'
            · refine ⟨(sliceStr_err he').1, hty, hb, ch, hq, hch, e, ?_⟩
              rw [Nat.min_eq_left (by omega), Nat.max_eq_right (by omega)]; exact he'
          · cases h
        · cases h
      · cases h
    · have := internalTag_err (s := { s with state := .WithinTag, hasSpace := false }) hp h
      exact absurd this.2.1 (by simp)
  · rename_i hn
    exact absurd (by simpa using hn) (rest_ne_nil hp)

/-- Every panic of `scan` is a slice panic, for one of these reasons. -/
theorem internalScan_err {c : Cfg} {s : Sc} {e : Panic} (h : internalScan c s = .error e) :
    e = .slice ∧ s.pos < c.src.length ∧
    ((isBoundary c.src s.pos = false ∧
        (s.state = .AfterOpeningEndTag ∨ s.state = .AfterOpeningStartTag ∨
         (s.state = .WithinTag ∧ s.hasSpace = true) ∨
         (s.state = .AfterAttributeName ∧ s.hasSpace = true) ∨
         s.state = .BeforeAttributeValue ∨ s.state = .WithinStyleContent)) ∨
     ((s.state = .WithinContent ∨ s.state = .WithinStyleContent ∨ s.state = .WithinScriptContent) ∧
        (rest c s).head? = some 60 ∧ ((rest c s).drop 1).head? = some 33 ∧
        isBoundary c.src (s.pos + 1) = false) ∨
     (s.state = .WithinScriptContent ∧
        scriptLoop c (c.src.length - s.pos + 1) 1 s.pos = .error .slice) ∨
     (s.state = .BeforeAttributeValue ∧ BadQuoted c s) ∨
     (s.state = .BeforeAttributeValue ∧ isBoundary c.src s.pos = true ∧
        (∃ q, (q = 39 ∨ q = 34) ∧
        ((rest c s).drop (unquotedLen (rest c s))).head? = some q ∧
        isBoundary c.src (s.pos + unquotedLen (rest c s) + 1) = false))) := by
  unfold internalScan at h
  by_cases hp : s.pos < c.src.length
  · rw [eos_false hp] at h
    simp only [Bool.false_eq_true, if_false] at h
    cases hs : s.state <;> rw [hs] at h <;> simp only at h
    · have := armContent_err h; exact ⟨this.1, hp, .inr (.inl ⟨.inl rfl, this.2⟩)⟩
    · unfold armAfterOpeningStartTag at h
      rcases bind_err h with h | ⟨⟨n, s1⟩, hn, h2⟩
      · have := nextElementName_err hp h; exact ⟨this.1, hp, by simp [this]⟩
      · simp only at h2
        split at h2
        · cases h2
        · split at h2
          · cases h2
          · split at h2
            · cases h2
            · obtain ⟨hb, hn | hn⟩ := nextElementName_ok hn
              · obtain ⟨_, rfl, rfl⟩ := hn
                rename_i hx
                simp only [adv] at hx
                have hx' : untilByte 62 (rest c { s1 with lastTag := none, lastType := none, lastAttr := none, state := .WithinTag }) = 0 := by
                  omega
                rw [hx'] at h2
                have := (internalTag_err (by exact hp) h2).2.2
                simp only [adv, Nat.add_zero] at this
                rw [hb] at this; cases this
              · obtain ⟨_, rfl, rfl⟩ := hn
                simp_all
    · unfold armAfterOpeningEndTag at h
      rcases bind_err h with h | ⟨⟨n, s1⟩, hn, h⟩
      · have := nextElementName_err hp h; exact ⟨this.1, hp, by simp [this]⟩
      · simp only at h
        split at h
        · cases h
        · split at h
          · cases h
          · split at h
            · cases h
            · exact (internalEndTag_noerr h).elim
    · unfold armDoctype at h; split at h <;> cases h
    · have := armTag_err hp h; exact ⟨this.1, hp, by simp [this]⟩
    · exact (armEndTag_noerr h).elim
    · unfold armComment at h; split at h <;> cases h
    · unfold armScript at h
      rcases bind_err h with h | ⟨r, hr, h⟩
      · have := scriptLoop_err (by omega) h
        subst this
        exact ⟨rfl, hp, by simp [h]⟩
      · split at h
        · cases h
        · rename_i p
          have hat := scriptLoop_at (Nat.le_of_lt hp) hr
          simp only at h
          split at h
          · cases h
          · rename_i hlt
            have : p = s.pos := by have := hat.1; omega
            subst this
            have := internalContent_err h
            refine ⟨this.1, hp, .inr (.inl ⟨by simp, this.2⟩)⟩
    · unfold armStyle at h
      rcases bind_err h with h | ⟨r, hr, h⟩
      · have := sliceFrom_err h
        exact ⟨this.1, hp, by simp [this.2 (Nat.le_of_lt hp)]⟩
      · obtain ⟨rfl, hb⟩ := sliceFrom_ok hr
        change (if s.pos < s.pos + untilLit b!"</style" (rest c s) then _ else _) = _ at h
        split at h
        · cases h
        · rename_i hlt
          have h0 : untilLit b!"</style" (rest c s) = 0 := by omega
          simp only [h0, adv, Nat.add_zero] at h
          have := internalContent_err h
          refine ⟨this.1, hp, .inr (.inl ⟨by simp, this.2⟩)⟩
    · unfold armAfterAttributeName at h
      simp only at h
      split at h
      · cases h
      · split at h
        · cases h
        · have := internalTag_err (s := { s with state := .WithinTag }) hp h
          exact ⟨this.1, hp, .inl ⟨this.2.2, .inr (.inr (.inr (.inl ⟨rfl, this.2.1⟩)))⟩⟩
    · unfold armBeforeAttributeValue at h
      simp only [peek_eq_head] at h
      split at h
      · cases h
      · rcases bind_err h with h | ⟨r, hr, h⟩
        · have := sliceFrom_err h
          exact ⟨this.1, hp, by simp [this.2 (Nat.le_of_lt hp)]⟩
        · obtain ⟨rfl, hb⟩ := sliceFrom_ok hr
          split at h
          · have := armQuotedValue_err hp hb h
            exact ⟨this.1, hp, .inr (.inr (.inr (.inl ⟨rfl, this.2⟩)))⟩
          · rename_i hn
            have h62 : (rest c s).head? ≠ some 62 := by
              intro hx; have := unquotedLen_gt hx; omega
            have hgb : ((rest c s).head? == some 62 && peekPrev c s == some 47) = false := by
              simp [h62]
            simp only [hgb, trimValue, Bool.false_eq_true, if_false, rest_adv] at h
            have hle : unquotedLen (rest c s) ≤ (rest c s).length := firstRunLen_le _ _ _
            have hvl : ((rest c s).take (unquotedLen (rest c s))).length = unquotedLen (rest c s) := by
              simp; omega
            have key : ∀ v2 : Str, extendValue c
                (((rest c s).drop (unquotedLen (rest c s))).head? == some 39 ||
                  ((rest c s).drop (unquotedLen (rest c s))).head? == some 34)
                (if (((rest c s).drop (unquotedLen (rest c s))).head? == some 39 ||
                  ((rest c s).drop (unquotedLen (rest c s))).head? == some 34) = true then
                  adv (adv s (unquotedLen (rest c s))) 1 else adv s (unquotedLen (rest c s))).pos
                ((rest c s).take (unquotedLen (rest c s))) = .ok v2 → 0 < v2.length := by
              intro v2 hv2
              unfold extendValue at hv2
              split at hv2
              · rename_i hq
                obtain ⟨a, ha, hv2⟩ := bind_ok hv2
                obtain ⟨a', ha', hv2⟩ := bind_ok hv2
                have h1 := subU_ok ha; have h2 := subU_ok ha'
                obtain ⟨_, hl, _, _, hv⟩ := sliceStr_ok hv2
                rw [hv, bytesIn_length hl]
                simp only [hq, if_true, adv, hvl] at h1 h2 ⊢; omega
              · cases hv2; omega
            rcases bind_err h with h | ⟨v1, hv1, h⟩
            · cases h
            · cases hv1
              rcases bind_err h with h | ⟨v2, hv2, h⟩
              · unfold extendValue at h
                split at h
                · rename_i hq
                  simp only [hq, if_true, adv, hvl] at h
                  have e1 : subU (s.pos + unquotedLen (rest c s) + 1) (unquotedLen (rest c s)) = .ok (s.pos + 1) := by
                    unfold subU; rw [if_pos (by omega)]; congr 1; omega
                  have e2 : subU (s.pos + 1) 1 = .ok s.pos := by
                    unfold subU; rw [if_pos (by omega)]; rfl
                  simp only [e1, e2, bind, Except.bind] at h
                  obtain ⟨hx1, hx2⟩ := sliceStr_err h
                  refine ⟨hx1, hp, .inr (.inr (.inr (.inr ⟨rfl, hb, ?_⟩)))⟩
                  simp only [Bool.or_eq_true, beq_iff_eq] at hq
                  have hnb : isBoundary c.src (s.pos + unquotedLen (rest c s) + 1) = false := by
                    rw [← Bool.not_eq_true]; exact fun hb' => hx2 ⟨by omega, hb, hb'⟩
                  rcases hq with hq | hq
                  · exact ⟨39, .inl rfl, hq, hnb⟩
                  · exact ⟨34, .inr rfl, hq, hnb⟩
                · cases h
              · rcases bind_err h with h | ⟨s4, hs4, h⟩
                · cases h
                · cases hs4
                  rw [if_pos (key v2 hv2)] at h
                  cases h
  · rw [eos_true (by omega)] at h
    simp only [if_true] at h
    cases h

theorem scan_err {c : Cfg} {s : Sc} {e : Panic} (h : scan c s = .error e) : e = .slice := by
  rw [scan_eq_internalScan] at h; exact (internalScan_err h).1

theorem tokensF_err {c : Cfg} {f : Nat} {s : Sc} {e : Panic} (hf : mu c s < f)
    (h : tokensF c f s = .error e) : e = .slice := by
  induction f generalizing s with
  | zero => omega
  | succ f ih =>
    unfold tokensF at h
    rcases bind_err h with h | ⟨s1, h1, h⟩
    · exact scan_err h
    · split at h
      · cases h
      · rename_i hne
        have := (scan_step h1).mu_lt hne
        rcases bind_err h with h | ⟨ts, _, h⟩
        · exact ih (by omega) h
        · cases h

end Html
