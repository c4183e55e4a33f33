import Verif.Spec.LetterCase
import Verif.Proof.ParseTotal

/-!
# The scanner on two texts that differ in letter case only
-/

namespace Html
open Spec

/-! ### Bytes -/

theorem low_iff {x y k : Nat} (h : lowerByte x = lowerByte y) (hk : ¬ (65 ≤ k ∧ k ≤ 90) ∧ ¬ (97 ≤ k ∧ k ≤ 122)) :
    x = k ↔ y = k := by
  unfold lowerByte at h
  split at h <;> split at h <;> omega

theorem low_ascii {x y : Nat} (h : lowerByte x = lowerByte y) : x < 128 ↔ y < 128 := by
  unfold lowerByte at h
  split at h <;> split at h <;> omega

theorem low_big {x y : Nat} (h : lowerByte x = lowerByte y) (hx : ¬ x < 128) : x = y := by
  unfold lowerByte at h
  split at h <;> split at h <;> omega

theorem low_cont {x y : Nat} (h : lowerByte x = lowerByte y) : isCont x = isCont y := by
  by_cases hx : x < 128
  · have hy := (low_ascii h).1 hx
    have h1 : isCont x = false := by simp [isCont]; omega
    have h2 : isCont y = false := by simp [isCont]; omega
    rw [h1, h2]
  · rw [low_big h hx]

theorem same_cons {x y : Nat} {a b : Str} : SameLetters (x :: a) (y :: b) ↔
    lowerByte x = lowerByte y ∧ SameLetters a b := by
  unfold SameLetters asciiLower
  rw [List.map_cons, List.map_cons, List.cons.injEq]
  rfl

theorem same_length {a b : Str} (h : SameLetters a b) : a.length = b.length := by
  have := congrArg List.length h
  simpa [asciiLower] using this

theorem same_nil {b : Str} (h : SameLetters [] b) : b = [] := by
  have := same_length h
  exact List.length_eq_zero_iff.1 this.symm

theorem same_cases {a b : Str} (h : SameLetters a b) :
    (a = [] ∧ b = []) ∨ ∃ x y a' b', a = x :: a' ∧ b = y :: b' ∧ lowerByte x = lowerByte y ∧ SameLetters a' b' := by
  cases a with
  | nil => exact .inl ⟨rfl, same_nil h⟩
  | cons x a =>
    cases b with
    | nil => have := same_length h; simp at this
    | cons y b =>
      obtain ⟨h1, h2⟩ := same_cons.1 h
      exact .inr ⟨x, y, a, b, rfl, rfl, h1, h2⟩

theorem same_drop {a b : Str} (h : SameLetters a b) (n : Nat) : SameLetters (a.drop n) (b.drop n) := by
  unfold SameLetters asciiLower at *
  rw [List.map_drop, List.map_drop, h]

theorem same_take {a b : Str} (h : SameLetters a b) (n : Nat) : SameLetters (a.take n) (b.take n) := by
  unfold SameLetters asciiLower at *
  rw [List.map_take, List.map_take, h]

theorem same_get {a b : Str} (h : SameLetters a b) (n : Nat) :
    (a[n]?).map lowerByte = (b[n]?).map lowerByte := by
  have : (a.map lowerByte)[n]? = (b.map lowerByte)[n]? := by
    have : a.map lowerByte = b.map lowerByte := h
    rw [this]
  rwa [List.getElem?_map, List.getElem?_map] at this

/-- A byte that is no letter. -/
def NoLetter (k : Nat) : Prop := ¬ (65 ≤ k ∧ k ≤ 90) ∧ ¬ (97 ≤ k ∧ k ≤ 122)

instance (k : Nat) : Decidable (NoLetter k) := by unfold NoLetter; infer_instance

theorem same_at {a b : Str} (h : SameLetters a b) (n : Nat) {k : Nat} (hk : NoLetter k) :
    (b[n]? = some k) = (a[n]? = some k) := by
  have := same_get h n
  cases ha : a[n]? <;> cases hb : b[n]? <;> rw [ha, hb] at this <;> simp at this ⊢
  exact (low_iff this hk).symm

/-- Classes of characters that do not distinguish upper and lower case. -/
def NoCase (p : Nat → Bool) : Prop := ∀ x y, lowerByte x = lowerByte y → p x = p y

theorem same_codePoint {a b : Str} (h : SameLetters a b) : lowerByte (codePoint a) = lowerByte (codePoint b) := by
  have hd : ∀ {a b : Str}, SameLetters a b → a.headD 128 - 128 = b.headD 128 - 128 := by
    intro a b h
    rcases same_cases h with ⟨rfl, rfl⟩ | ⟨x, y, a', b', rfl, rfl, h1, _⟩
    · rfl
    · show x - 128 = y - 128
      by_cases hx : x < 128
      · have := (low_ascii h1).1 hx; omega
      · rw [low_big h1 hx]
  have ht : ∀ {a b : Str}, SameLetters a b → SameLetters a.tail b.tail := by
    intro a b h
    have := same_drop h 1
    simpa using this
  rcases same_cases h with ⟨rfl, rfl⟩ | ⟨x, y, a', b', rfl, rfl, h1, h2⟩
  · rfl
  · by_cases hx : x < 128
    · have hy := (low_ascii h1).1 hx
      simp only [codePoint, hx, hy, if_true, h1]
    · have := low_big h1 hx
      subst this
      simp only [codePoint, hd h2, hd (ht h2), hd (ht (ht h2))]

theorem same_runLen {p : Nat → Bool} (hp : NoCase p) {a b : Str} (h : SameLetters a b) : runLen p a = runLen p b := by
  induction a generalizing b with
  | nil => rw [same_nil h]
  | cons x a ih =>
    rcases same_cases h with ⟨h, _⟩ | ⟨x', y, a', b', he, rfl, h1, h2⟩
    · cases h
    · cases he
      unfold runLen
      rw [low_cont h1, hp _ _ (same_codePoint h), ih h2]

theorem same_firstRunLen {p q : Nat → Bool} (hp : NoCase p) (hq : NoCase q) {a b : Str} (h : SameLetters a b) :
    firstRunLen p q a = firstRunLen p q b := by
  rcases same_cases h with ⟨rfl, rfl⟩ | ⟨x', y, a', b', rfl, rfl, h1, h2⟩
  · rfl
  · simp only [firstRunLen, hp _ _ (same_codePoint h), same_runLen hq h2]

theorem same_untilByte {k : Nat} (hk : NoLetter k) {a b : Str} (h : SameLetters a b) : untilByte k a = untilByte k b := by
  induction a generalizing b with
  | nil => rw [same_nil h]
  | cons x a ih =>
    rcases same_cases h with ⟨h, _⟩ | ⟨x', y, a', b', he, rfl, h1, h2⟩
    · cases h
    · cases he
      unfold untilByte
      simp only [low_iff h1 hk, ih h2]

theorem same_wsLen {a b : Str} (h : SameLetters a b) : wsLen a = wsLen b := by
  induction a generalizing b with
  | nil => rw [same_nil h]
  | cons x a ih =>
    rcases same_cases h with ⟨h, _⟩ | ⟨x', y, a', b', he, rfl, h1, h2⟩
    · cases h
    · cases he
      unfold wsLen
      have : isWs x = isWs y := by
        rw [Bool.eq_iff_iff]
        simp only [isWs, Bool.or_eq_true, beq_iff_eq]
        rw [low_iff (k := 32) h1 (by decide), low_iff (k := 9) h1 (by decide), low_iff (k := 10) h1 (by decide),
          low_iff (k := 12) h1 (by decide), low_iff (k := 13) h1 (by decide)]
      rw [this, ih h2]

theorem same_isPrefixOf {lit : Str} (hl : ∀ k ∈ lit, NoLetter k) {a b : Str} (h : SameLetters a b) :
    lit.isPrefixOf a = lit.isPrefixOf b := by
  induction lit generalizing a b with
  | nil => simp
  | cons k lit ih =>
    rcases same_cases h with ⟨rfl, rfl⟩ | ⟨x, y, a', b', rfl, rfl, h1, h2⟩
    · rfl
    · simp only [List.isPrefixOf]
      rw [ih (fun k hk => hl k (List.mem_cons_of_mem _ hk)) h2]
      congr 1
      rw [Bool.eq_iff_iff, beq_iff_eq, beq_iff_eq]
      have := low_iff h1 (hl k List.mem_cons_self)
      constructor
      · exact fun h => (this.1 h.symm).symm
      · exact fun h => (this.2 h.symm).symm

theorem same_untilLit {lit : Str} {a b : Str} (h : a.length = b.length)
    (hl : ∀ o, lit.isPrefixOf (a.drop o) = lit.isPrefixOf (b.drop o)) : untilLit lit a = untilLit lit b := by
  induction a generalizing b with
  | nil => cases b with
    | nil => rfl
    | cons => simp at h
  | cons x a ih =>
    cases b with
    | nil => simp at h
    | cons y b =>
      unfold untilLit
      have h0 := hl 0
      rw [List.drop_zero, List.drop_zero] at h0
      rw [h0, ih (by simpa using h) (fun o => by simpa using hl (o + 1))]

theorem same_isDoctype {a b : Str} (h : SameLetters a b) : isDoctype a = isDoctype b := by
  have : a.map lowerByte = b.map lowerByte := h
  unfold isDoctype
  rw [this]

theorem same_boundary {a b : Str} (h : SameLetters a b) (i : Nat) : isBoundary a i = isBoundary b i := by
  unfold isBoundary
  rw [same_length h]
  split
  · rfl
  · have := same_get h i
    cases ha : a[i]? <;> cases hb : b[i]? <;> rw [ha, hb] at this <;> simp at this ⊢
    exact low_cont this

theorem same_slice {a b : Str} (h : SameLetters a b) (i j : Nat) :
    (∃ x y, sliceStr a i j = .ok x ∧ sliceStr b i j = .ok y ∧ SameLetters x y) ∨
    (sliceStr a i j = .error .slice ∧ sliceStr b i j = .error .slice) := by
  unfold sliceStr
  rw [same_length h, same_boundary h, same_boundary h]
  split
  · exact .inl ⟨_, _, rfl, rfl, same_drop (same_take h _) _⟩
  · exact .inr ⟨rfl, rfl⟩

theorem same_toLower {u : Uni} (hu : LowersLetters u) {a b : Str} (h : SameLetters a b) : toLower u a = toLower u b := by
  have hall : a.all (· < 128) = b.all (· < 128) := by
    clear hu
    induction a generalizing b with
    | nil => rw [same_nil h]
    | cons x a ih =>
      rcases same_cases h with ⟨h, _⟩ | ⟨x', y, a', b', he, rfl, h1, h2⟩
      · cases h
      · cases he
        rw [List.all_cons, List.all_cons, ih h2]
        congr 1
        rw [Bool.eq_iff_iff, decide_eq_true_iff, decide_eq_true_iff]
        exact low_ascii h1
  unfold toLower
  rw [hall]
  have h1 : a.map lowerByte = b.map lowerByte := h
  rw [h1, hu a b h]

theorem noCase_word (u : Uni) : NoCase (isWordCP u) := by
  intro x y h
  unfold isWordCP
  by_cases hx : x < 128
  · rw [if_pos hx, if_pos ((low_ascii h).1 hx)]
    unfold isWordAscii
    rw [Bool.eq_iff_iff]
    simp only [Bool.or_eq_true, Bool.and_eq_true, decide_eq_true_eq, beq_iff_eq]
    unfold lowerByte at h
    split at h <;> split at h <;> omega
  · rw [low_big h hx]

theorem noCase_eq {k : Nat} (hk : NoLetter k) (x y : Nat) (h : lowerByte x = lowerByte y) : (x == k) = (y == k) := by
  rw [Bool.eq_iff_iff, beq_iff_eq, beq_iff_eq]
  exact low_iff h hk

theorem noCase_space : NoCase isSpaceCP := by
  intro x y h
  by_cases hx : x < 128
  · have hy := (low_ascii h).1 hx
    unfold isSpaceCP
    rw [Bool.eq_iff_iff]
    simp only [Bool.or_eq_true, Bool.and_eq_true, decide_eq_true_eq, beq_iff_eq]
    unfold lowerByte at h
    split at h <;> split at h <;> omega
  · rw [low_big h hx]

theorem noCase_nameFirst (u : Uni) : NoCase (nameFirst u) := by
  intro x y h
  unfold nameFirst
  rw [noCase_word u x y h, noCase_eq (k := 95) (by decide) x y h, noCase_eq (k := 58) (by decide) x y h]

theorem noCase_nameRest (u : Uni) : NoCase (nameRest u) := by
  intro x y h
  unfold nameRest
  rw [noCase_word u x y h, noCase_eq (k := 95) (by decide) x y h, noCase_eq (k := 58) (by decide) x y h,
    noCase_eq (k := 45) (by decide) x y h, noCase_eq (k := 46) (by decide) x y h]

theorem noCase_attrName : NoCase attrNameChar := by
  intro x y h
  unfold attrNameChar
  rw [noCase_space x y h, noCase_eq (k := 34) (by decide) x y h, noCase_eq (k := 39) (by decide) x y h,
    noCase_eq (k := 62) (by decide) x y h, noCase_eq (k := 60) (by decide) x y h,
    noCase_eq (k := 47) (by decide) x y h, noCase_eq (k := 61) (by decide) x y h]
  have h1 : decide (x ≤ 15) = decide (y ≤ 15) := by
    rw [decide_eq_decide]
    unfold lowerByte at h
    split at h <;> split at h <;> omega
  have h2 : (decide (127 ≤ x) && decide (x ≤ 159)) = (decide (127 ≤ y) && decide (y ≤ 159)) := by
    rw [Bool.eq_iff_iff]
    simp only [Bool.and_eq_true, decide_eq_true_eq]
    unfold lowerByte at h
    split at h <;> split at h <;> omega
  rw [h1, h2]

theorem noCase_unquoted : NoCase unquotedChar := by
  intro x y h
  unfold unquotedChar
  rw [noCase_space x y h, noCase_eq (k := 34) (by decide) x y h, noCase_eq (k := 39) (by decide) x y h,
    noCase_eq (k := 96) (by decide) x y h, noCase_eq (k := 61) (by decide) x y h,
    noCase_eq (k := 60) (by decide) x y h, noCase_eq (k := 62) (by decide) x y h]

end Html
