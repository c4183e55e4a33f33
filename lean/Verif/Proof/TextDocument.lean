import Verif.Spec.Position

/-! # The reference text document -/

namespace Html
open Spec

theorem isBoundary_cons_succ {b : Nat} {t : Str} {o : Nat} :
    isBoundary (b :: t) (o + 1) = isBoundary t o := by
  simp [isBoundary]

theorem ref_roundTrip {s : Str} {o : Nat} (h : o ≤ s.length) (hb : isBoundary s o = true) :
    refOffsetAt s (refPosAt s o).line (refPosAt s o).character = o := by
  induction s generalizing o with
  | nil =>
    cases o with
    | zero => rfl
    | succ o => simp at h
  | cons b t ih =>
    cases o with
    | zero =>
      simp [isBoundary] at hb
      simp [refPosAt, refOffsetAt, hb]
    | succ o =>
      have ih := ih (o := o) (by simpa using h) (by rw [← isBoundary_cons_succ (b := b)]; exact hb)
      simp only [refPosAt]
      split
      · rename_i hk
        simp only [refOffsetAt, hk, if_true, ih]; omega
      · rename_i hk
        split
        · rename_i hl
          rw [hl] at ih
          simp only [refOffsetAt, hk]
          split
          · rename_i hc
            simp only [units, hc, if_true, Nat.zero_add, ih]; omega
          · rename_i hc
            have hu : 0 < units b := by
              unfold units; rw [if_neg hc]; split <;> omega
            rw [if_neg (by omega), if_neg (by simp), Nat.add_sub_cancel_left, ih]; omega
        · rename_i hl
          obtain ⟨l, hl'⟩ : ∃ l, (refPosAt t o).line = l + 1 := ⟨(refPosAt t o).line - 1, by omega⟩
          rw [hl'] at ih ⊢
          simp only [refOffsetAt, hk, Bool.false_eq_true, if_false, ih]; omega

theorem ref_zero (s : Str) : refPosAt s 0 = ⟨0, 0⟩ := by cases s <;> rfl

theorem ref_mono {s : Str} {o o' : Nat} (h : o ≤ o') : PosLe (refPosAt s o) (refPosAt s o') := by
  induction s generalizing o o' with
  | nil => cases o <;> cases o' <;> simp [refPosAt, PosLe]
  | cons b t ih =>
    cases o with
    | zero => rw [ref_zero]; unfold PosLe; simp; omega
    | succ o =>
      cases o' with
      | zero => omega
      | succ o' =>
        have ih := ih (o := o) (o' := o') (by omega)
        simp only [refPosAt]
        unfold PosLe at *
        by_cases hb : isBreak b t = true
        · simp only [hb, if_true]; omega
        · by_cases h1 : (refPosAt t o).line = 0 <;> by_cases h2 : (refPosAt t o').line = 0 <;>
            simp only [hb, Bool.false_eq_true, if_false, if_true, h1, h2, true_and] <;> omega

theorem ref_clamp {s : Str} {o : Nat} (h : s.length ≤ o) : refPosAt s o = refPosAt s s.length := by
  induction s generalizing o with
  | nil => cases o <;> rfl
  | cons b t ih =>
    cases o with
    | zero => simp at h
    | succ o =>
      simp only [List.length_cons] at h ⊢
      unfold refPosAt
      rw [ih (by omega)]

theorem ref_inRange (s : Str) (l ch : Nat) :
    refOffsetAt s l ch ≤ s.length ∧ isBoundary s (refOffsetAt s l ch) = true := by
  have key : ∀ (b : Nat) (t : Str) (k : Nat), k ≤ t.length ∧ isBoundary t k = true →
      1 + k ≤ (b :: t).length ∧ isBoundary (b :: t) (1 + k) = true := by
    intro b t k ⟨h1, h2⟩
    rw [Nat.add_comm, isBoundary_cons_succ]
    exact ⟨by simpa using h1, h2⟩
  induction s generalizing l ch with
  | nil => simp [refOffsetAt, isBoundary]
  | cons b t ih =>
    cases l with
    | succ l => exact key b t _ (ih _ _)
    | zero =>
      simp only [refOffsetAt]
      split
      · exact key b t _ (ih _ _)
      · split
        · rename_i hc _
          simp [isBoundary, hc]
        · split <;> exact key b t _ (ih _ _)

theorem isBreak_iff {b : Nat} {t : Str} : isBreak b t = true ↔ BreakAt (b :: t) 0 := by
  cases t <;> simp [isBreak, BreakAt]

theorem breakAt_succ {b : Nat} {t : Str} {i : Nat} : BreakAt (b :: t) (i + 1) ↔ BreakAt t i := by
  simp [BreakAt]

theorem breaksBefore_succ {b : Nat} {t : Str} {o : Nat} :
    breaksBefore (b :: t) (o + 1) = (if isBreak b t then 1 else 0) + breaksBefore t o := by
  unfold breaksBefore
  rw [List.range_succ_eq_map, List.filter_cons, List.filter_map]
  have e : ((fun i => decide (BreakAt (b :: t) i)) ∘ Nat.succ) = (fun i => decide (BreakAt t i)) := by
    funext i
    simp only [Function.comp, Nat.succ_eq_add_one]
    exact decide_eq_decide.2 breakAt_succ
  rw [e]
  by_cases h : isBreak b t = true
  · rw [if_pos h, if_pos (by simpa using isBreak_iff.1 h)]; simp; omega
  · rw [if_neg h, if_neg (by simpa using fun hx => h (isBreak_iff.2 hx))]; simp

theorem ref_line {s : Str} {o : Nat} (h : o ≤ s.length) : (refPosAt s o).line = breaksBefore s o := by
  induction s generalizing o with
  | nil =>
    have : o = 0 := by simpa using h
    subst this; rfl
  | cons b t ih =>
    cases o with
    | zero => rfl
    | succ o =>
      have ih := ih (o := o) (by simpa using h)
      rw [breaksBefore_succ, ← ih]
      simp only [refPosAt]
      split
      · simp only; omega
      · split
        · rename_i h0; simp only; omega
        · omega

theorem breaksBefore_zero {s : Str} {o : Nat} (h : ∀ i, i < o → ¬ BreakAt s i) :
    breaksBefore s o = 0 := by
  unfold breaksBefore
  rw [List.length_eq_zero_iff, List.filter_eq_nil_iff]
  intro i hi
  simpa using h i (by simpa using hi)

theorem breaksBefore_pos {s : Str} {o i : Nat} (hi : i < o) (h : BreakAt s i) : breaksBefore s o ≠ 0 := by
  unfold breaksBefore
  intro h0
  rw [List.length_eq_zero_iff, List.filter_eq_nil_iff] at h0
  exact h0 i (by simpa using hi) (by simpa using h)

theorem utf16Len_cons (b : Nat) (s : Str) : utf16Len (b :: s) = units b + utf16Len s := by
  unfold utf16Len units
  simp only [List.filter_cons, isCont]
  by_cases h1 : b < 128
  · have h2 : ¬ 240 ≤ b := by omega
    have h3 : ¬ 128 ≤ b := by omega
    simp [h1, h2, h3]; omega
  · by_cases h2 : b < 192
    · have h3 : ¬ 240 ≤ b := by omega
      have h4 : ¬ 192 ≤ b := by omega
      have h5 : 128 ≤ b := by omega
      simp [h1, h2, h3, h4, h5]
    · have h4 : 192 ≤ b := by omega
      by_cases h3 : 240 ≤ b
      · simp [h1, h2, h3, h4]; omega
      · simp [h1, h2, h3, h4]; omega

theorem ref_character {s : Str} {o a : Nat} (h : o ≤ s.length) (hl : LineStart s o a) :
    (refPosAt s o).character = utf16Len (bytesIn s a o) := by
  induction s generalizing o a with
  | nil =>
    have : o = 0 := by simpa using h
    subst this
    simp [refPosAt, bytesIn, utf16Len]
  | cons b t ih =>
    obtain ⟨h1, h2, h3⟩ := hl
    cases o with
    | zero =>
      simp [refPosAt, bytesIn, utf16Len]
    | succ o =>
      have hle : o ≤ t.length := by simpa using h
      simp only [refPosAt]
      cases a with
      | zero =>
        have hb : isBreak b t ≠ true := fun hx => h3 0 (by omega) (by omega) (isBreak_iff.1 hx)
        have hn : ∀ i, i < o → ¬ BreakAt t i := fun i hi hx =>
          h3 (i + 1) (by omega) (by omega) (breakAt_succ.2 hx)
        have hz : (refPosAt t o).line = 0 := by rw [ref_line hle, breaksBefore_zero hn]
        rw [if_neg hb, if_pos hz]
        have ih := ih (o := o) (a := 0) hle ⟨by omega, .inl rfl, fun i _ hi => hn i hi⟩
        simp only [ih]
        simp only [bytesIn, List.drop_zero, List.take_succ_cons, utf16Len_cons]
      | succ a =>
        have e : bytesIn (b :: t) (a + 1) (o + 1) = bytesIn t a o := by simp [bytesIn]
        rw [e]
        have hn : ∀ i, a ≤ i → i < o → ¬ BreakAt t i := fun i h4 hi hx =>
          h3 (i + 1) (by omega) (by omega) (breakAt_succ.2 hx)
        rcases h2 with h2 | h2
        · omega
        · simp only [Nat.add_sub_cancel] at h2
          cases a with
          | zero =>
            rw [if_pos (isBreak_iff.2 h2)]
            exact ih hle ⟨by omega, .inl rfl, hn⟩
          | succ a =>
            rw [breakAt_succ] at h2
            have ih := ih (o := o) (a := a + 1) hle ⟨by omega, .inr (by simpa using h2), hn⟩
            split
            · exact ih
            · have hz : (refPosAt t o).line ≠ 0 := by
                rw [ref_line hle]; exact breaksBefore_pos (by omega) h2
              rw [if_neg hz]; exact ih

end Html
