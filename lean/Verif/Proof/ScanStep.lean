import Verif.Proof.Step

/-! # `scan` is covered by `Step` -/

namespace Html

theorem head_cons {r : Str} {b : Nat} (h : r.head? = some b) : ∃ t, r = b :: t := by
  cases r with
  | nil => simp at h
  | cons a t => simp at h; subst h; exact ⟨t, rfl⟩

theorem armContent_step {c : Cfg} {s s' : Sc} (hp : s.pos < c.src.length)
    (h : armContent c s s.pos = .ok s') : StepContent c s s' := by
  unfold armContent at h
  simp only [peek_eq_head, rest_adv] at h
  split at h
  · rename_i h60
    obtain ⟨t, ht⟩ := head_cons h60
    have hd : (rest c s).drop 1 = t := by rw [ht]; rfl
    rw [hd] at h
    have afterBang : ∀ (hc : (b!"!--").isPrefixOf t = false) (hdt : isDoctype t = false),
        (if t.head? = some 47 then
          Except.ok (ε := Panic) (fin { adv (adv s 1) 1 with state := .AfterOpeningEndTag } s.pos .EndTagOpen none)
        else
          Except.ok (fin { adv s 1 with state := .AfterOpeningStartTag } s.pos .StartTagOpen none))
          = .ok s' → StepContent c s s' := by
      intro hc hdt h
      split at h
      · rename_i h47
        obtain ⟨t2, ht2⟩ := head_cons h47
        cases h
        exact .endTagOpen (by rw [ht, ht2]; simp)
      · rename_i h47
        cases h
        refine .startTagOpen h60 ?_ ?_ ?_
        · rw [ht]; cases t with
          | nil => simp [List.isPrefixOf]
          | cons a t2 =>
            simp at h47
            simp [List.isPrefixOf, Ne.symm h47]
        · rw [ht]; simpa [List.isPrefixOf] using hc
        · rw [ht]; simpa [List.isPrefixOf, lowerByte, isDoctype] using hdt
    split at h
    · rename_i h33
      obtain ⟨t2, ht2⟩ := head_cons h33
      split at h
      · rename_i hc
        cases h
        exact .startComment (by rw [ht]; simpa [List.isPrefixOf] using hc)
      · rename_i hc
        obtain ⟨r, hr, h⟩ := bind_ok h
        obtain ⟨hr1, hb⟩ := sliceFrom_ok hr
        rw [rest_adv, hd] at hr1
        split at h
        · rename_i hdt
          cases h
          refine .startDoctype ?_ hb
          rw [ht]; rw [hr1] at hdt
          simpa [isDoctype, List.isPrefixOf, lowerByte] using hdt
        · rename_i hdt
          rw [hr1] at hdt
          exact afterBang (Bool.eq_false_iff.2 hc) (Bool.eq_false_iff.2 hdt) h
    · rename_i h33
      refine afterBang ?_ ?_ h
      · cases t with
        | nil => simp [List.isPrefixOf]
        | cons a t2 =>
          simp at h33
          simp [List.isPrefixOf, Ne.symm h33]
      · cases t with
        | nil => simp [isDoctype, List.isPrefixOf]
        | cons a t2 =>
          simp at h33
          have : lowerByte a ≠ 33 := by unfold lowerByte; split <;> omega
          simp [isDoctype, List.isPrefixOf, Ne.symm this]
  · rename_i h60
    cases h
    exact .content h60 (untilByte_pos (rest_ne_nil hp) h60)

theorem armEndTag_step {c : Cfg} {s s' : Sc} 
    (h : armEndTag c s s.pos = .ok s') : StepEndTag c s s' := by
  unfold armEndTag at h
  simp only [peek_eq_head] at h
  split at h
  · cases h; exact .ws (by assumption)
  · split at h
    · cases h; exact .close (by assumption)
    · split at h
      · rename_i hx; simp at hx
        cases h; exact .pseudo hx.1 (by simpa using hx.2)
      · rename_i h0 h1 hx; simp at hx
        cases h; exact .unknown (by omega) h1 (by simpa using hx)

theorem armTagRest_step {c : Cfg} {s s1 s' : Sc} (hw : wsLen (rest c s) = 0)
    (hpre : TagPre c s s1) (hpos : s1.pos = s.pos) (hst : afterStartTag s1 = afterStartTag s)
    (h : armTagRest c s1 s.pos = .ok s') : StepTag c s s' := by
  have hr : rest c s1 = rest c s := by simp [rest, hpos]
  unfold armTagRest at h
  simp only [peek_eq_head, hr] at h
  split at h
  · cases h; exact .selfClose s1 hpre (by assumption)
  · split at h
    · cases h; rw [hst]; exact .close s1 hpre (by assumption)
    · split at h
      · rename_i hx; simp at hx
        cases h; exact .pseudo s1 hpre hx.1 (by simpa using hx.2)
      · rename_i h0 h1 hx; simp at hx
        cases h; exact .unknown s1 hpre hw (Bool.eq_false_iff.2 h0) h1 (by simpa using hx)

theorem nextAttributeName_ok {c : Cfg} {s s1 : Sc} {n : Option Str}
    (h : nextAttributeName c s = .ok (n, s1)) :
    isBoundary c.src s.pos = true ∧
    ((attrNameLen (rest c s) = 0 ∧ n = none ∧ s1 = s) ∨
     (0 < attrNameLen (rest c s) ∧ s1 = adv s (attrNameLen (rest c s)) ∧
      n = some (if c.caseSensitive then (rest c s).take (attrNameLen (rest c s))
                          else toLower c.uni ((rest c s).take (attrNameLen (rest c s)))))) := by
  unfold nextAttributeName at h
  obtain ⟨r, hr, h⟩ := bind_ok h
  obtain ⟨hr1, hb⟩ := sliceFrom_ok hr
  subst hr1
  refine ⟨hb, ?_⟩
  simp only at h
  split at h
  · cases h; left; exact ⟨by assumption, rfl, rfl⟩
  · cases h; right; exact ⟨by omega, rfl, rfl⟩

theorem nextElementName_ok {c : Cfg} {s s1 : Sc} {n : Option Str}
    (h : nextElementName c s = .ok (n, s1)) :
    isBoundary c.src s.pos = true ∧
    ((elementNameLen c.uni (rest c s) = 0 ∧ n = none ∧ s1 = s) ∨
     (0 < elementNameLen c.uni (rest c s) ∧ s1 = adv s (elementNameLen c.uni (rest c s)) ∧
      n = some (if c.caseSensitive then (rest c s).take (elementNameLen c.uni (rest c s))
                else toLower c.uni ((rest c s).take (elementNameLen c.uni (rest c s)))))) := by
  unfold nextElementName at h
  obtain ⟨r, hr, h⟩ := bind_ok h
  obtain ⟨hr1, hb⟩ := sliceFrom_ok hr
  subst hr1
  refine ⟨hb, ?_⟩
  simp only at h
  split at h
  · cases h; left; exact ⟨by assumption, rfl, rfl⟩
  · cases h; right; exact ⟨by omega, rfl, rfl⟩

theorem armTag_step {c : Cfg} {s s' : Sc} 
    (h : armTag c s s.pos = .ok s') : StepTag c s s' := by
  unfold armTag at h
  simp only at h
  split at h
  · cases h; exact .ws (by assumption)
  · rename_i hw
    have hw : wsLen (rest c s) = 0 := by omega
    split at h
    · rename_i hsp
      obtain ⟨⟨n, s1⟩, hn, h⟩ := bind_ok h
      obtain ⟨hb, hn | hn⟩ := nextAttributeName_ok hn
      · obtain ⟨h0, rfl, rfl⟩ := hn
        simp only [Option.isSome_none, Bool.false_eq_true, if_false] at h
        have hr : ∀ l, rest c { s1 with lastAttr := l } = rest c s1 := fun l => rfl
        rw [peek_eq_head, hr] at h
        split at h
        · exact armTagRest_step hw (.equals hsp hb h0 (by assumption)) rfl rfl h
        · exact armTagRest_step hw (.other hsp hb h0 (by assumption)) rfl rfl h
      · obtain ⟨h0, rfl, rfl⟩ := hn
        simp only [Option.isSome_some, if_true] at h
        cases h
        exact .attrName hsp hw hb h0
    · rename_i hsp
      exact armTagRest_step hw (.noSpace (by simpa using hsp)) rfl rfl h

theorem internalTag_eq {c : Cfg} {s : Sc} (hp : s.pos < c.src.length) :
    internalTag c s = armTag c s s.pos := by
  unfold internalTag; simp [eos_false hp]

theorem internalEndTag_eq {c : Cfg} {s : Sc} (hp : s.pos < c.src.length) :
    internalEndTag c s = armEndTag c s s.pos := by
  unfold internalEndTag; simp [eos_false hp]

theorem internalTag_step {c : Cfg} {s s' : Sc} (hp : s.pos < c.src.length)
    (h : internalTag c s = .ok s') : StepTag c s s' := by
  unfold internalTag at h
  rw [eos_false hp] at h
  exact armTag_step h

theorem internalContent_step {c : Cfg} {s s' : Sc} (hp : s.pos < c.src.length)
    (h : internalContent c s = .ok s') : StepContent c s s' := by
  unfold internalContent at h
  rw [eos_false hp] at h
  exact armContent_step hp h

theorem untilByte_zero_head {c : Cfg} {s : Sc} (hp : s.pos < c.src.length) {b : Nat}
    (h : ¬ s.pos < s.pos + untilByte b (rest c s)) : (rest c s).head? = some b :=
  untilByte_zero (rest_ne_nil hp) (by omega)

theorem armAfterOpeningEndTag_step {c : Cfg} {s s' : Sc} (hp : s.pos < c.src.length)
    (hs : s.state = .AfterOpeningEndTag)
    (h : armAfterOpeningEndTag c s s.pos = .ok s') : Step c s s' := by
  unfold armAfterOpeningEndTag at h
  obtain ⟨⟨n, s1⟩, hn, h⟩ := bind_ok h
  obtain ⟨hb, hn | hn⟩ := nextElementName_ok hn
  · obtain ⟨h0, rfl, rfl⟩ := hn
    simp only [Option.isSome_none, Bool.false_eq_true, if_false] at h
    split at h
    · cases h; exact .endTagWs hp hs hb h0 (by assumption)
    · have hw : wsLen (rest c s1) = 0 := by omega
      split at h
      · rename_i hx
        cases h
        exact .endTagNoName hp hs hb h0 hw (by simpa [adv, rest] using hx)
      · rename_i hx
        have h62 : (rest c s1).head? = some 62 := untilByte_zero_head hp hx
        have hz : untilByte 62 (rest c { s1 with state := SS.WithinEndTag }) = 0 := by
          obtain ⟨t, ht⟩ := head_cons h62
          have : rest c { s1 with state := SS.WithinEndTag } = rest c s1 := rfl
          rw [this, ht]; simp [untilByte]
        rw [hz] at h
        simp only [adv, Nat.add_zero] at h
        rw [internalEndTag_eq (by exact hp)] at h
        unfold armEndTag at h
        have hr : rest c { s1 with state := SS.WithinEndTag } = rest c s1 := rfl
        simp only [peek_eq_head, hr, hw, h62] at h
        simp at h
        cases h
        exact .endTagImmediate hp hs hb h0 hw h62
  · obtain ⟨h0, rfl, rfl⟩ := hn
    simp only [Option.isSome_some, if_true] at h
    cases h
    exact .endTagName hp hs hb h0

theorem attrNameLen_gt {r : Str} (h : r.head? = some 62) : attrNameLen r = 0 := by
  obtain ⟨t, rfl⟩ := head_cons h
  simp [attrNameLen, firstRunLen, codePoint, attrNameChar]

theorem armAfterOpeningStartTag_step {c : Cfg} {s s' : Sc} (hp : s.pos < c.src.length)
    (hs : s.state = .AfterOpeningStartTag)
    (h : armAfterOpeningStartTag c s s.pos = .ok s') : Step c s s' := by
  unfold armAfterOpeningStartTag at h
  obtain ⟨⟨n, s1⟩, hn, h⟩ := bind_ok h
  obtain ⟨hb, hn | hn⟩ := nextElementName_ok hn
  · obtain ⟨h0, rfl, rfl⟩ := hn
    simp only [Option.isSome_none, Bool.false_eq_true, if_false] at h
    have hr : ∀ a b d, rest c { s1 with lastTag := a, lastType := b, lastAttr := d } = rest c s1 :=
      fun _ _ _ => rfl
    rw [hr] at h
    split at h
    · cases h; exact .startTagWs hp hs hb h0 (by assumption)
    · have hw : wsLen (rest c s1) = 0 := by omega
      split at h
      · rename_i hx
        cases h
        exact .startTagNoName hp hs hb h0 hw (by simpa [adv, rest] using hx)
      · rename_i hx
        have h62 : (rest c s1).head? = some 62 := untilByte_zero_head hp hx
        have hz : ∀ a b d e, untilByte 62 (rest c { s1 with lastTag := a, lastType := b, lastAttr := d, state := e }) = 0 := by
          intro a b d e
          obtain ⟨t, ht⟩ := head_cons h62
          have : rest c { s1 with lastTag := a, lastType := b, lastAttr := d, state := e } = rest c s1 := rfl
          rw [this, ht]; simp [untilByte]
        rw [hz] at h
        simp only [adv, Nat.add_zero] at h
        rw [internalTag_eq (by exact hp)] at h
        have hr : ∀ a b d e, rest c { s1 with lastTag := a, lastType := b, lastAttr := d, state := e } = rest c s1 := fun _ _ _ _ => rfl
        have hr2 : ∀ a b d e f, rest c { s1 with lastTag := a, lastType := b, lastAttr := d, state := e, hasSpace := f } = rest c s1 := fun _ _ _ _ _ => rfl
        have hsf : ∀ a b d e, sliceFrom c { s1 with lastTag := a, lastType := b, lastAttr := d, state := e } = .ok (rest c s1) := by
          intro a b d e; exact sliceFrom_eq (s := { s1 with lastTag := a, lastType := b, lastAttr := d, state := e }) hb
        obtain ⟨t, ht⟩ := head_cons h62
        have hps : (b!"/>").isPrefixOf (rest c s1) = false := by rw [ht]; simp [List.isPrefixOf]
        have hst : ∀ b d e f, afterStartTag { s1 with lastTag := none, lastType := b, lastAttr := d, state := e, hasSpace := f } = .WithinContent := by
          intros; simp [afterStartTag]
        have hst2 : ∀ b d e, afterStartTag { s1 with lastTag := none, lastType := b, lastAttr := d, state := e } = .WithinContent := by
          intros; simp [afterStartTag]
        unfold armTag at h
        simp only [hr, hw, Nat.lt_irrefl, gt_iff_lt, if_false] at h
        have hres : s' = fin { adv s1 1 with lastTag := none, lastType := none, lastAttr := none, state := .WithinContent } s1.pos .StartTagClose none := by
          split at h
          · rename_i hsp
            unfold nextAttributeName at h
            simp only [hsf, bind, Except.bind, attrNameLen_gt h62] at h
            simp only [if_true, pure, Except.pure, Option.isSome_none, Bool.false_eq_true, if_false] at h
            unfold armTagRest at h
            simp only [peek_eq_head, hr, hr2, h62, hps, hst2] at h
            simp at h
            rw [← h]; rfl
          · unfold armTagRest at h
            simp only [peek_eq_head, hr, hr2, h62, hps, hst2] at h
            simp at h
            rw [← h]; rfl
        rw [hres]
        exact .startTagImmediate hp hs hb h0 hw h62
  · obtain ⟨h0, rfl, rfl⟩ := hn
    simp only [Option.isSome_some, if_true] at h
    cases h
    exact .startTagName hp hs hb h0

theorem armAfterAttributeName_step {c : Cfg} {s s' : Sc} (hp : s.pos < c.src.length)
    (hs : s.state = .AfterAttributeName)
    (h : armAfterAttributeName c s s.pos = .ok s') : Step c s s' := by
  unfold armAfterAttributeName at h
  simp only [peek_eq_head] at h
  split at h
  · cases h; exact .afterNameWs hp hs (by assumption)
  · split at h
    · cases h; exact .assign hp hs (by omega) (by assumption)
    · exact .afterNameTag s' hp hs (by omega) (by assumption)
        (internalTag_step (s := { s with state := .WithinTag }) hp h)

theorem armQuotedValue_step {c : Cfg} {s s' : Sc} (hp : s.pos < c.src.length)
    (hs : s.state = .BeforeAttributeValue) (hw : wsLen (rest c s) = 0)
    (hb : isBoundary c.src s.pos = true) (h0 : unquotedLen (rest c s) = 0)
    (h : armQuotedValue c s s.pos = .ok s') : Step c s s' := by
  unfold armQuotedValue at h
  simp only [peek_eq_head] at h
  split at h
  · rename_i ch hch
    split at h
    · rename_i hq
      obtain ⟨s4, h4, h⟩ := bind_ok h
      cases h
      have hq' : ch = 39 ∨ ch = 34 := hq
      obtain ⟨t, ht⟩ := head_cons hch
      have hlen := rest_length c s
      have hul := untilByte_le ch t
      have htl : t.length + 1 = c.src.length - s.pos := by rw [← hlen, ht]; rfl
      have hr1 : rest c (adv s 1) = t := by rw [rest_adv, ht]; rfl
      have hql : (if (rest c (adv (adv s 1) (untilByte ch (rest c (adv s 1))))).head? = some ch
          then adv (adv (adv s 1) (untilByte ch (rest c (adv s 1)))) 1
          else adv (adv s 1) (untilByte ch (rest c (adv s 1)))) = adv s (quotedLen ch (rest c s)) := by
        rw [rest_adv, hr1]
        unfold quotedLen
        rw [ht]
        simp only [List.drop_one, List.tail_cons, List.length_cons, List.head?_drop]
        by_cases hlt : untilByte ch t < t.length
        · have := untilByte_get hlt
          rw [if_pos this, if_pos (by omega)]
          simp only [adv, Sc.mk.injEq, true_and, and_true]; omega
        · have hnone : t[untilByte ch t]? = none := by
            rw [List.getElem?_eq_none_iff]; omega
          rw [hnone, if_neg (by simp), if_neg (by omega)]
          simp only [adv, Sc.mk.injEq, true_and, and_true]; omega
      rw [hql] at h4
      have hkey : s4 = { adv s (quotedLen ch (rest c s)) with lastType := typeAfter s (quotedType c s.pos (s.pos + quotedLen ch (rest c s))) } := by
        unfold typeAfter
        unfold rememberQuoted at h4
        have hla : (adv s (quotedLen ch (rest c s))).lastAttr = s.lastAttr := rfl
        rw [hla] at h4
        split at h4
        · rename_i hty
          obtain ⟨e, he, h4⟩ := bind_ok h4
          obtain ⟨he1, he2⟩ := subU_ok he
          obtain ⟨v, hv, h4⟩ := bind_ok h4
          cases h4
          simp only [adv] at he2
          have : v = quotedType c s.pos (s.pos + quotedLen ch (rest c s)) := by
            unfold quotedType
            rw [← he2]
            split at hv
            · rename_i hc; rw [if_pos hc]; exact (sliceStr_ok hv).2.2.2.2
            · rename_i hc; rw [if_neg hc]; exact (sliceStr_ok hv).2.2.2.2
          rw [this, if_pos hty]; rfl
        · rename_i hty
          cases h4
          rw [if_neg hty]; rfl
      rw [hkey]
      exact .valueQuoted hp hs hw hb h0 ch hq' hch
    · rename_i hq
      refine .valueTag s' hp hs hw hb h0 ?_
        (internalTag_step (s := { s with state := .WithinTag, hasSpace := false }) hp h)
      rw [hch]
      simp only [ne_eq, Option.some.injEq]
      omega
  · rename_i hn
    exact absurd (by simpa using hn) (rest_ne_nil hp)

theorem unquotedLen_gt {r : Str} (h : r.head? = some 62) : unquotedLen r = 0 := by
  obtain ⟨t, rfl⟩ := head_cons h
  simp [unquotedLen, firstRunLen, codePoint, unquotedChar]

theorem armBeforeAttributeValue_step {c : Cfg} {s s' : Sc} (hp : s.pos < c.src.length)
    (hs : s.state = .BeforeAttributeValue)
    (h : armBeforeAttributeValue c s s.pos = .ok s') : Step c s s' := by
  unfold armBeforeAttributeValue at h
  simp only [peek_eq_head] at h
  split at h
  · cases h; exact .valueWs hp hs (by assumption)
  · have hw : wsLen (rest c s) = 0 := by omega
    obtain ⟨r, hr, h⟩ := bind_ok h
    obtain ⟨rfl, hb⟩ := sliceFrom_ok hr
    split at h
    · exact armQuotedValue_step hp hs hw hb (by assumption) h
    · rename_i hn
      have hn : 0 < unquotedLen (rest c s) := by omega
      have h62 : (rest c s).head? ≠ some 62 := by
        intro hx; have := unquotedLen_gt hx; omega
      have hgb : ((rest c s).head? == some 62 && peekPrev c s == some 47) = false := by
        simp [h62]
      simp only [hgb, trimValue, Bool.false_eq_true, if_false, rest_adv] at h
      obtain ⟨v1, hv1, h⟩ := bind_ok h
      cases hv1
      obtain ⟨v2, hv2, h⟩ := bind_ok h
      obtain ⟨s4, hs4, h⟩ := bind_ok h
      cases hs4
      have hle : unquotedLen (rest c s) ≤ (rest c s).length := firstRunLen_le _ _ _
      have hvl : ((rest c s).take (unquotedLen (rest c s))).length = unquotedLen (rest c s) := by
        simp; omega
      have hres := Step.valueUnquoted hp hs hw hb hn
      by_cases hq : ((rest c s).drop (unquotedLen (rest c s))).head? = some 39 ∨
          ((rest c s).drop (unquotedLen (rest c s))).head? = some 34
      · have hfull : unquotedFullLen (rest c s) = unquotedLen (rest c s) + 1 := by
          simp only [unquotedFullLen, hq, if_true]
        have hqb : (((rest c s).drop (unquotedLen (rest c s))).head? == some 39 ||
          ((rest c s).drop (unquotedLen (rest c s))).head? == some 34) = true := by
          simp only [Bool.or_eq_true, beq_iff_eq]; exact hq
        simp only [hqb, if_true, extendValue, adv, hvl] at hv2 h
        obtain ⟨a1, ha1, hv2⟩ := bind_ok hv2
        obtain ⟨a2, ha2, hsl⟩ := bind_ok hv2
        have := (subU_ok ha1).2
        have := (subU_ok ha2).2
        have ha : a2 = s.pos := by omega
        subst ha
        obtain ⟨_, hl, _, _, hv⟩ := sliceStr_ok hsl
        have hvl : v2.length = unquotedLen (rest c s) + 1 := by
          rw [hv, bytesIn_length hl]; omega
        rw [if_pos (by omega)] at h
        rw [hfull] at hres
        simp only [typeAfter, ← Nat.add_assoc, ← hv, adv] at hres
        cases h
        by_cases hty : s.lastAttr = some b!"type"
        · simp only [hty, if_true] at hres ⊢; exact hres
        · simp only [hty, if_false] at hres ⊢; exact hres
      · have hfull : unquotedFullLen (rest c s) = unquotedLen (rest c s) := by
          simp only [unquotedFullLen, hq, if_false]
        have hqb : (((rest c s).drop (unquotedLen (rest c s))).head? == some 39 ||
          ((rest c s).drop (unquotedLen (rest c s))).head? == some 34) = false := by
          rw [Bool.eq_false_iff]; simp only [ne_eq, Bool.or_eq_true, beq_iff_eq]; exact hq
        simp only [hqb, Bool.false_eq_true, if_false, extendValue] at hv2 h
        cases hv2
        rw [if_pos (by omega)] at h
        rw [hfull, bytesIn_eq_take] at hres
        have : c.src.drop s.pos = rest c s := rfl
        rw [this] at hres
        cases h
        simp only [typeAfter, adv] at hres ⊢
        by_cases hty : s.lastAttr = some b!"type"
        · simp only [hty, if_true] at hres ⊢; exact hres
        · simp only [hty, if_false] at hres ⊢; exact hres

/-! ### Script -/

theorem scriptTailLen_le (s : Str) : scriptTailLen s ≤ s.length := by
  have h1 := runLen_le isSpaceCP s
  have h2 : ∀ (t : Str) (b : Nat), (if t.head? = some b then 1 else 0) ≤ t.length := by
    intro t b; cases t with
    | nil => simp
    | cons a t => simp only [List.length_cons]; split <;> omega
  have h3 := h2 (s.drop (runLen isSpaceCP s)) 47
  have h4 := h2 ((s.drop (runLen isSpaceCP s)).drop (if (s.drop (runLen isSpaceCP s)).head? = some 47 then 1 else 0)) 62
  simp only [List.length_drop] at h3 h4
  unfold scriptTailLen
  simp only
  omega

theorem isPrefixOf_length {a b : Str} (h : a.isPrefixOf b = true) : a.length ≤ b.length := by
  rw [List.isPrefixOf_iff_prefix] at h
  exact h.length_le

theorem scriptMatchAt_le {s : Str} {k : ScriptMatch} {n : Nat}
    (h : scriptMatchAt s = some (k, n)) : 0 < n ∧ n ≤ s.length := by
  unfold scriptMatchAt at h
  split at h
  · rename_i hp; have := isPrefixOf_length hp; simp at this; cases h; omega
  · split at h
    · rename_i hp; have := isPrefixOf_length hp; simp at this; cases h; omega
    · split at h
      · rename_i hp
        have := isPrefixOf_length hp
        have h2 := scriptTailLen_le (s.drop 7)
        simp at this h2; cases h; omega
      · split at h
        · rename_i hp
          have := isPrefixOf_length hp
          have h2 := scriptTailLen_le (s.drop 8)
          simp at this h2; cases h; omega
        · cases h

theorem scriptFind_le {s : Str} {k : ScriptMatch} {i n : Nat}
    (h : scriptFind s = some (k, i, n)) : 0 < n ∧ i + n ≤ s.length ∧
      scriptMatchAt (s.drop i) = some (k, n) := by
  induction s generalizing i with
  | nil => simp [scriptFind] at h
  | cons b t ih =>
    unfold scriptFind at h
    split at h
    · rename_i k' n' hm
      cases h
      have := scriptMatchAt_le hm
      refine ⟨this.1, by simpa using this.2, by simpa using hm⟩
    · simp only [Option.map_eq_some_iff] at h
      obtain ⟨⟨k', i', n'⟩, h1, h2⟩ := h
      cases h2
      obtain ⟨h3, h4, h5⟩ := ih h1
      simp only at h3 h4 h5
      exact ⟨h3, by simp only [List.length_cons]; omega, by simpa using h5⟩

/-- The script loop stops within the text, not before its start; if it stops before
the end then at a `</script`. -/
theorem scriptLoop_at {c : Cfg} {f st pos p : Nat} (hp : pos ≤ c.src.length)
    (h : scriptLoop c f st pos = .ok (.at p)) :
    pos ≤ p ∧ p ≤ c.src.length ∧
      (p < c.src.length → (b!"</script").isPrefixOf (c.src.drop p) = true) := by
  induction f generalizing st pos with
  | zero => cases h
  | succ f ih =>
    unfold scriptLoop at h
    split at h
    · cases h; exact ⟨Nat.le_refl _, hp, fun h => by omega⟩
    · obtain ⟨r, hr, h⟩ := bind_ok h
      obtain ⟨_, _, _, _, hr⟩ := sliceStr_ok hr
      rw [bytesIn_to_end] at hr
      subst hr
      split at h
      · cases h
      · rename_i k i n hf
        obtain ⟨hn, hin, hma⟩ := scriptFind_le hf
        simp at hin
        have hp' : pos + i + n ≤ c.src.length := by omega
        split at h
        · have := ih hp' h; exact ⟨by omega, this.2.1, this.2.2⟩
        · have := ih hp' h; exact ⟨by omega, this.2.1, this.2.2⟩
        · have := ih hp' h; exact ⟨by omega, this.2.1, this.2.2⟩
        · split at h
          · have := ih hp' h; exact ⟨by omega, this.2.1, this.2.2⟩
          · obtain ⟨q, hq, h⟩ := bind_ok h
            cases h
            obtain ⟨h1, h2⟩ := subU_ok hq
            have hp2 : p = pos + i := by omega
            refine ⟨by omega, by omega, fun _ => ?_⟩
            rw [List.drop_drop] at hma
            rw [hp2]
            unfold scriptMatchAt at hma
            split at hma
            · cases hma
            · split at hma
              · cases hma
              · split at hma
                · cases hma
                · split at hma
                  · assumption
                  · cases hma

theorem armScript_step {c : Cfg} {s s' : Sc} (hp : s.pos < c.src.length)
    (hs : s.state = .WithinScriptContent)
    (h : armScript c s s.pos = .ok s') : Step c s s' := by
  unfold armScript at h
  obtain ⟨r, hr, h⟩ := bind_ok h
  split at h
  · cases h
    have := Step.script (c := c) (s := s) c.src.length .WithinScriptContent hp hs hp (Nat.le_refl _)
      (.inr ⟨rfl, rfl, hr⟩)
    rw [← hs] at this
    exact this
  · rename_i p
    have hat := scriptLoop_at (Nat.le_of_lt hp) hr
    simp only at h
    split at h
    · rename_i hlt
      cases h
      exact .script p .WithinContent hp hs hlt hat.2.1 (.inl ⟨rfl, hr⟩)
    · rename_i hlt
      have : p = s.pos := by have := hat.1; omega
      subst this
      exact .scriptContent s' hp hs hr (internalContent_step (s := { s with state := .WithinContent }) hp h)

theorem armStyle_step {c : Cfg} {s s' : Sc} (hp : s.pos < c.src.length)
    (hs : s.state = .WithinStyleContent)
    (h : armStyle c s s.pos = .ok s') : Step c s s' := by
  unfold armStyle at h
  obtain ⟨r, hr, h⟩ := bind_ok h
  obtain ⟨rfl, hb⟩ := sliceFrom_ok hr
  change (if s.pos < s.pos + untilLit b!"</style" (rest c s) then _ else _) = _ at h
  split at h
  · cases h; exact .style hp hs hb (by omega)
  · rename_i hlt
    have h0 : untilLit b!"</style" (rest c s) = 0 := by omega
    simp only [h0, adv, Nat.add_zero] at h
    exact .styleContent s' hp hs hb h0 (internalContent_step (s := { s with state := .WithinContent }) hp h)

theorem internalScan_step {c : Cfg} {s s' : Sc} (h : internalScan c s = .ok s') : Step c s s' := by
  unfold internalScan at h
  by_cases hp : s.pos < c.src.length
  · rw [eos_false hp] at h
    simp only [Bool.false_eq_true, if_false] at h
    cases hs : s.state <;> rw [hs] at h <;> simp only at h
    · exact .content s' hp hs (armContent_step hp h)
    · exact armAfterOpeningStartTag_step hp hs h
    · exact armAfterOpeningEndTag_step hp hs h
    · unfold armDoctype at h
      rw [peek_eq_head] at h
      split at h
      · cases h; exact .doctypeEnd hp hs (by assumption)
      · cases h; exact .doctype hp hs (by assumption) (untilByte_pos (rest_ne_nil hp) (by assumption))
    · exact .tag s' hp hs (armTag_step h)
    · exact .endTag s' hp hs (armEndTag_step h)
    · unfold armComment at h
      split at h
      · cases h; exact .commentEnd hp hs (by assumption)
      · rename_i hx
        cases h
        refine .comment hp hs (Bool.eq_false_iff.2 hx) ?_
        have hne := rest_ne_nil hp
        cases hr : rest c s with
        | nil => exact absurd hr hne
        | cons b t => rw [hr] at hx; simp only [untilLit]; rw [if_neg hx]; omega
    · exact armScript_step hp hs h
    · exact armStyle_step hp hs h
    · exact armAfterAttributeName_step hp hs h
    · exact armBeforeAttributeValue_step hp hs h
  · rw [eos_true (by omega)] at h
    simp only [if_true] at h
    cases h
    exact .eos (by omega)

end Html
