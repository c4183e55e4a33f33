import Verif.Model.Scanner

/-! # Lemmas about the matching primitives and slices -/

namespace Html

theorem runLen_le (p : Nat → Bool) (s : Str) : runLen p s ≤ s.length := by
  induction s with
  | nil => simp [runLen]
  | cons b t ih => simp only [runLen, List.length_cons]; split <;> (try split) <;> omega

theorem firstRunLen_le (p q : Nat → Bool) (s : Str) : firstRunLen p q s ≤ s.length := by
  cases s with
  | nil => simp [firstRunLen]
  | cons b t =>
    have := runLen_le q t
    simp only [firstRunLen, List.length_cons]; split <;> omega

theorem untilByte_le (c : Nat) (s : Str) : untilByte c s ≤ s.length := by
  induction s with
  | nil => simp [untilByte]
  | cons b t ih => simp only [untilByte, List.length_cons]; split <;> omega

theorem untilLit_le (l : Str) (s : Str) : untilLit l s ≤ s.length := by
  induction s with
  | nil => simp [untilLit]
  | cons b t ih => simp only [untilLit, List.length_cons]; split <;> omega

theorem wsLen_le (s : Str) : wsLen s ≤ s.length := by
  induction s with
  | nil => simp [wsLen]
  | cons b t ih => simp only [wsLen, List.length_cons]; split <;> omega

theorem untilByte_get {c : Nat} {s : Str} (h : untilByte c s < s.length) :
    s[untilByte c s]? = some c := by
  induction s with
  | nil => simp at h
  | cons b t ih =>
    simp only [untilByte] at h ⊢
    split
    · simp_all
    · rename_i hb
      simp only [hb, if_false, List.length_cons] at h
      rw [Nat.add_comm 1]; simp only [List.getElem?_cons_succ]
      exact ih (by omega)

theorem untilByte_ne {c : Nat} {s : Str} : c ∉ s.take (untilByte c s) := by
  induction s with
  | nil => simp [untilByte]
  | cons b t ih =>
    simp only [untilByte]
    split
    · simp
    · rename_i hb
      rw [Nat.add_comm 1]; simp only [List.take_succ_cons, List.mem_cons, not_or]
      exact ⟨fun h => hb h.symm, ih⟩

theorem untilByte_zero {c : Nat} {s : Str} (hs : s ≠ []) (h : untilByte c s = 0) :
    s.head? = some c := by
  cases s with
  | nil => simp at hs
  | cons b t =>
    simp only [untilByte] at h
    split at h
    · simp_all
    · omega

theorem untilByte_pos {c : Nat} {s : Str} (hs : s ≠ []) (h : s.head? ≠ some c) :
    0 < untilByte c s := by
  rcases Nat.eq_zero_or_pos (untilByte c s) with h0 | h0
  · exact absurd (untilByte_zero hs h0) h
  · exact h0

theorem untilLit_prefix {l s : Str} (h : untilLit l s < s.length) :
    l.isPrefixOf (s.drop (untilLit l s)) = true := by
  induction s with
  | nil => simp at h
  | cons b t ih =>
    simp only [untilLit] at h ⊢
    split
    · simp_all
    · rename_i hb
      simp only [hb, List.length_cons] at h
      rw [Nat.add_comm 1]; simp only [List.drop_succ_cons]
      exact ih (by simp at h; omega)

theorem untilLit_none {l s : Str} {i : Nat} (h : i < untilLit l s) :
    l.isPrefixOf (s.drop i) = false := by
  induction s generalizing i with
  | nil => simp [untilLit] at h
  | cons b t ih =>
    simp only [untilLit] at h
    split at h
    · omega
    · rename_i hb
      cases i with
      | zero => simp only [List.drop_zero]; exact Bool.eq_false_iff.2 hb
      | succ j => simp only [List.drop_succ_cons]; exact ih (by omega)

theorem wsLen_all {s : Str} {b : Nat} (h : b ∈ s.take (wsLen s)) : isWs b = true := by
  induction s with
  | nil => simp [wsLen] at h
  | cons a t ih =>
    simp only [wsLen] at h
    split at h
    · rename_i ha
      rw [Nat.add_comm 1] at h
      simp only [List.take_succ_cons, List.mem_cons] at h
      rcases h with rfl | h
      · exact ha
      · exact ih h
    · simp at h

theorem wsLen_zero_iff {s : Str} : wsLen s = 0 ↔ ∀ b, s.head? = some b → isWs b = false := by
  cases s with
  | nil => simp [wsLen]
  | cons a t =>
    simp only [wsLen, List.head?_cons, Option.some.injEq]
    constructor
    · intro h b hb; subst hb; split at h
      · omega
      · simp_all
    · intro h; have := h a rfl; simp [this]

/-- After the maximal whitespace run no whitespace follows. -/
theorem wsLen_drop (s : Str) : wsLen (s.drop (wsLen s)) = 0 := by
  induction s with
  | nil => simp [wsLen]
  | cons a t ih =>
    rw [wsLen]; split
    · rw [Nat.add_comm 1]; simpa using ih
    · rename_i h; simp [wsLen, h]

/-! ### Boundaries and slices -/

theorem isBoundary_length (s : Str) : isBoundary s s.length = true := by simp [isBoundary]

theorem isBoundary_of_get {s : Str} {i : Nat} {b : Nat} (h : s[i]? = some b) (hb : isCont b = false) :
    isBoundary s i = true := by
  have : i ≠ s.length := by rintro rfl; simp at h
  simp [isBoundary, this, h, hb]

theorem isBoundary_le {s : Str} {i : Nat} (h : isBoundary s i = true) : i ≤ s.length := by
  unfold isBoundary at h
  split at h
  · omega
  · split at h
    · rename_i h1; have := List.getElem?_eq_some_iff.1 h1; obtain ⟨h2, _⟩ := this; omega
    · simp at h

theorem isBoundary_cont {s : Str} {i : Nat} (h : i < s.length) :
    isBoundary s i = !isCont s[i] := by
  have : i ≠ s.length := by omega
  simp [isBoundary, this, h]

theorem sliceStr_ok {s : Str} {a b : Nat} {r : Str} (h : sliceStr s a b = .ok r) :
    a ≤ b ∧ b ≤ s.length ∧ isBoundary s a = true ∧ isBoundary s b = true ∧ r = bytesIn s a b := by
  unfold sliceStr at h
  split at h
  · rename_i hc
    simp only [Bool.and_eq_true, decide_eq_true_eq] at hc
    cases h
    exact ⟨hc.1.1.1, hc.1.1.2, hc.1.2, hc.2, rfl⟩
  · cases h

theorem sliceStr_eq {s : Str} {a b : Nat} (h1 : a ≤ b) (h2 : isBoundary s a = true)
    (h3 : isBoundary s b = true) : sliceStr s a b = .ok (bytesIn s a b) := by
  have := isBoundary_le h3
  simp [sliceStr, bytesIn, h1, h2, h3, this]

theorem sliceStr_err {s : Str} {a b : Nat} {e : Panic} (h : sliceStr s a b = .error e) :
    e = .slice ∧ ¬ (a ≤ b ∧ isBoundary s a = true ∧ isBoundary s b = true) := by
  constructor
  · unfold sliceStr at h; split at h <;> cases h; rfl
  · rintro ⟨h1, h2, h3⟩; rw [sliceStr_eq h1 h2 h3] at h; cases h

theorem bytesIn_length {s : Str} {a b : Nat} (hb : b ≤ s.length) : (bytesIn s a b).length = b - a := by
  simp [bytesIn]; omega

theorem bytesIn_self (s : Str) (a : Nat) : bytesIn s a a = [] := by
  simp [bytesIn]

theorem bytesIn_to_end (s : Str) (a : Nat) : bytesIn s a s.length = s.drop a := by
  simp [bytesIn]

theorem bytesIn_append {s : Str} {a b d : Nat} (h1 : a ≤ b) (h2 : b ≤ d) :
    bytesIn s a b ++ bytesIn s b d = bytesIn s a d := by
  unfold bytesIn
  rw [List.drop_take, List.drop_take, List.drop_take]
  have : s.drop b = (s.drop a).drop (b - a) := by rw [List.drop_drop]; congr 1; omega
  rw [this]
  have h3 : d - a = (b - a) + (d - b) := by omega
  rw [h3, List.take_add]

theorem bytesIn_eq_take (s : Str) (a n : Nat) : bytesIn s a (a + n) = (s.drop a).take n := by
  unfold bytesIn; rw [List.drop_take]; congr 1; omega

theorem bytesIn_getElem? (s : Str) (a b i : Nat) :
    (bytesIn s a b)[i]? = if a + i < b then s[a + i]? else none := by
  unfold bytesIn; rw [List.getElem?_drop, List.getElem?_take]

theorem mem_bytesIn {s : Str} {a b : Nat} {x : Nat} :
    x ∈ bytesIn s a b ↔ ∃ i, a ≤ i ∧ i < b ∧ s[i]? = some x := by
  rw [List.mem_iff_getElem?]
  constructor
  · rintro ⟨i, hi⟩
    rw [bytesIn_getElem?] at hi
    split at hi
    · exact ⟨a + i, by omega, by omega, hi⟩
    · cases hi
  · rintro ⟨i, h1, h2, h3⟩
    refine ⟨i - a, ?_⟩
    rw [bytesIn_getElem?]
    have : a + (i - a) = i := by omega
    simp [this, h2, h3]

theorem isAscii_boundary {s : Str} (h : isAscii s) {i : Nat} (hi : i ≤ s.length) :
    isBoundary s i = true := by
  rcases Nat.lt_or_ge i s.length with h1 | h1
  · rw [isBoundary_cont h1]
    have h0 : s[i] < 128 := h _ (List.getElem_mem h1)
    have h2 : ¬ 128 ≤ s[i] := by omega
    simp [isCont, h2]
  · have : i = s.length := by omega
    subst this; exact isBoundary_length s

theorem runLen_boundary (p : Nat → Bool) (s : Str) : isBoundary s (runLen p s) = true := by
  induction s with
  | nil => simp [runLen, isBoundary]
  | cons b t ih =>
    have key : isBoundary (b :: t) (1 + runLen p t) = true := by
      unfold isBoundary at ih ⊢
      rw [Nat.add_comm 1]
      simpa using ih
    simp only [runLen]
    split
    · exact key
    · rename_i hb
      split
      · exact key
      · simp [isBoundary, hb]

theorem firstRunLen_boundary {p q : Nat → Bool} {s : Str} (h : 0 < firstRunLen p q s) :
    isBoundary s (firstRunLen p q s) = true := by
  cases s with
  | nil => simp [firstRunLen] at h
  | cons b t =>
    simp only [firstRunLen] at h ⊢
    split
    · have ih := runLen_boundary q t
      unfold isBoundary at ih ⊢
      rw [Nat.add_comm 1]
      simpa using ih
    · simp_all

theorem isBoundary_drop {s : Str} {a i : Nat} (ha : a ≤ s.length) :
    isBoundary (s.drop a) i = isBoundary s (a + i) := by
  unfold isBoundary
  simp only [List.length_drop, List.getElem?_drop]
  by_cases h : i = s.length - a
  · have : a + i = s.length := by omega
    rw [if_pos h, if_pos this]
  · have : a + i ≠ s.length := by omega
    simp [h, this]

end Html
