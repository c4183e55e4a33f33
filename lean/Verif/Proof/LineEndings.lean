import Verif.Spec.LineEndings
import Verif.Proof.Utf8

/-!
# The matching primitives on a text with other line endings
-/

namespace Html
open Spec

theorem crlf_append (a b : Str) : crlf (a ++ b) = crlf a ++ crlf b := by
  induction a with
  | nil => rfl
  | cons x a ih =>
    simp only [List.cons_append, crlf, ih]
    split <;> rfl

theorem crlf_length (a : Str) : (crlf a).length = a.length + a.count 10 := by
  induction a with
  | nil => rfl
  | cons x a ih =>
    unfold crlf
    split
    · rename_i h; subst h
      simp only [List.length_cons, ih, List.count_cons_self]; omega
    · rename_i h
      simp only [List.length_cons, ih, List.count_cons_of_ne h]; omega

theorem crlf_none {a : Str} (h : 10 ∉ a) : crlf a = a := by
  induction a with
  | nil => rfl
  | cons x a ih =>
    simp only [List.mem_cons, not_or] at h
    unfold crlf
    rw [if_neg (fun e => h.1 e.symm), ih h.2]

theorem crlf_nil {a : Str} : crlf a = [] ↔ a = [] := by
  cases a with
  | nil => simp [crlf]
  | cons x a => unfold crlf; split <;> simp

theorem crlf_head (a : Str) : (crlf a).head? = a.head?.map fun b => if b = 10 then 13 else b := by
  cases a with
  | nil => rfl
  | cons x a => unfold crlf; split <;> simp_all

/-- A byte that is not part of a line ending. -/
def NoEnd (k : Nat) : Prop := k ≠ 10 ∧ k ≠ 13

instance (k : Nat) : Decidable (NoEnd k) := by unfold NoEnd; infer_instance

theorem crlf_head_eq {a : Str} {k : Nat} (hk : NoEnd k) : ((crlf a).head? = some k) = (a.head? = some k) := by
  rw [crlf_head]
  cases a with
  | nil => rfl
  | cons x a =>
    unfold NoEnd at hk
    simp only [List.head?_cons, Option.map_some, Option.some.injEq, eq_iff_iff]
    split <;> omega

theorem crlf_prefix {lit a : Str} (hk : ∀ k ∈ lit, NoEnd k) : lit.isPrefixOf (crlf a) = lit.isPrefixOf a := by
  induction lit generalizing a with
  | nil => simp
  | cons k lit ih =>
    have h1 := hk k (by simp)
    have h2 := fun j hj => hk j (List.mem_cons_of_mem _ hj)
    cases a with
    | nil => rfl
    | cons x a =>
      unfold crlf
      split
      · rename_i hx; subst hx
        have e1 : (k == 13) = false := by simp [h1.2]
        have e2 : (k == 10) = false := by simp [h1.1]
        simp [List.isPrefixOf, e1, e2]
      · simp only [List.isPrefixOf, ih h2]

theorem count_of_prefix {lit a : Str} (hk : ∀ k ∈ lit, NoEnd k) (h : lit.isPrefixOf a = true) :
    (a.take lit.length).count 10 = 0 := by
  rw [List.isPrefixOf_iff_prefix] at h
  obtain ⟨t, rfl⟩ := h
  rw [List.take_left', List.count_eq_zero]
  · exact fun hm => (hk 10 hm).1 rfl
  · rfl

/-- The function measures a part at the head of a text, and the same part with other line endings. -/
def Meas (f : Str → Nat) (r : Str) : Prop := f (crlf r) = f r + (r.take (f r)).count 10

theorem Meas.cons {f : Str → Nat} {b : Nat} {t : Str} (hb : b ≠ 10) (h1 : f (b :: crlf t) = 1 + f (crlf t))
    (h2 : f (b :: t) = 1 + f t) (h : Meas f t) : Meas f (b :: t) := by
  unfold Meas at h ⊢
  have e : crlf (b :: t) = b :: crlf t := by simp [crlf, hb]
  rw [e, h1, h2, h, Nat.add_comm 1 (f t), List.take_succ_cons, List.count_cons_of_ne hb]
  omega

theorem Meas.nl {f : Str → Nat} {t : Str} (h1 : f (13 :: 10 :: crlf t) = 2 + f (crlf t))
    (h2 : f (10 :: t) = 1 + f t) (h : Meas f t) : Meas f (10 :: t) := by
  unfold Meas at h ⊢
  have e : crlf (10 :: t) = 13 :: 10 :: crlf t := by simp [crlf]
  rw [e, h1, h2, h, Nat.add_comm 1 (f t), List.take_succ_cons, List.count_cons_self]
  omega

theorem Meas.stop {f : Str → Nat} {r : Str} (h1 : f (crlf r) = 0) (h2 : f r = 0) : Meas f r := by
  unfold Meas; rw [h1, h2]; rfl

theorem meas_ws (r : Str) : Meas wsLen r := by
  induction r with
  | nil => exact .stop rfl rfl
  | cons b t ih =>
    by_cases hb : b = 10
    · subst hb
      exact .nl (by simp only [wsLen, isWs]; simp; omega) (by simp [wsLen, isWs]) ih
    · by_cases hw : isWs b = true
      · exact .cons hb (by simp [wsLen, hw]) (by simp [wsLen, hw]) ih
      · exact .stop (by simp [crlf, hb, wsLen, hw]) (by simp [wsLen, hw])

theorem meas_untilByte {k : Nat} (hk : NoEnd k) (r : Str) : Meas (untilByte k) r := by
  induction r with
  | nil => exact .stop rfl rfl
  | cons b t ih =>
    have h1 := hk.1
    have h2 := hk.2
    by_cases hb : b = 10
    · subst hb
      refine .nl ?_ ?_ ih
      · simp only [untilByte]; rw [if_neg (by omega), if_neg (by omega)]; omega
      · simp only [untilByte]; rw [if_neg (by omega)]
    · by_cases hw : b = k
      · exact .stop (by simp only [crlf, hb, if_false, untilByte]; rw [if_pos hw]) (by simp [untilByte, hw])
      · exact .cons hb (by simp [untilByte, hw]) (by simp [untilByte, hw]) ih

theorem meas_untilLit {k : Nat} {lit : Str} (hk : ∀ b ∈ k :: lit, NoEnd b) (r : Str) : Meas (untilLit (k :: lit)) r := by
  have hk0 := hk k (by simp)
  have h1 := hk0.1
  have h2 := hk0.2
  induction r with
  | nil => exact .stop rfl rfl
  | cons b t ih =>
    by_cases hb : b = 10
    · subst hb
      have e1 : (k == 13) = false := by simp [h2]
      have e2 : (k == 10) = false := by simp [h1]
      refine .nl ?_ ?_ ih
      · simp only [untilLit, List.isPrefixOf, e1, e2, Bool.false_and, Bool.false_eq_true, if_false]; omega
      · simp only [untilLit, List.isPrefixOf, e2, Bool.false_and, Bool.false_eq_true, if_false]
    · have hp : (k :: lit).isPrefixOf (b :: crlf t) = (k :: lit).isPrefixOf (b :: t) := by
        have := crlf_prefix (a := b :: t) hk
        simpa [crlf, hb] using this
      by_cases hw : (k :: lit).isPrefixOf (b :: t) = true
      · refine .stop ?_ ?_
        · simp only [crlf, hb, if_false]; unfold untilLit; rw [hp, if_pos hw]
        · unfold untilLit; rw [if_pos hw]
      · refine .cons hb ?_ ?_ ih
        · conv => lhs; unfold untilLit
          rw [hp, if_neg hw]
        · conv => lhs; unfold untilLit
          rw [if_neg hw]

/-- Characters are not torn apart by the new line endings. -/
def Fit (r : Str) : Prop := ∀ o b t, r.drop o = b :: t → 128 ≤ b → codePoint (b :: crlf t) = codePoint (b :: t)

theorem Fit.drop {r : Str} (h : Fit r) (n : Nat) : Fit (r.drop n) := fun o b t ho => h (n + o) b t (by rw [← List.drop_drop]; exact ho)

theorem Fit.tail {b : Nat} {t : Str} (h : Fit (b :: t)) : Fit t := h.drop 1

theorem fit_of_utf8 {cps : List Nat} {src : Str} (h : Utf8 cps src) : Fit src := by
  obtain ⟨hc, rfl⟩ := h
  intro o b t ho hb
  by_cases hcont : isCont b = true
  · unfold isCont at hcont
    simp only [Bool.and_eq_true, decide_eq_true_eq] at hcont
    cases t with
    | nil => rfl
    | cons x t =>
      have e1 : ¬ b < 128 := by omega
      have e2 : b < 224 := by omega
      unfold crlf
      by_cases hx : x = 10
      · subst hx; simp [codePoint, e1, e2]
      · simp [codePoint, e1, e2, hx]
  · have hg : (cps.flatMap encodeCP)[o]? = some b := by
      have := congrArg List.head? ho
      simpa using this
    obtain ⟨k, hk⟩ := utf8_boundary hc (isBoundary_of_get hg (by simpa using hcont))
    rw [ho] at hk
    cases hd : cps.drop k with
    | nil => rw [hd] at hk; cases hk
    | cons cp l =>
      rw [hd, List.flatMap_cons] at hk
      have hcp : cp < 0x110000 := hc cp (List.mem_of_mem_drop (by rw [hd]; simp))
      obtain ⟨b', t', he, hct, hlt, _⟩ := encodeCP_cons cp
      have h10 : 10 ∉ encodeCP cp := by
        rw [he]
        rw [he] at hk
        injection hk with hk1 hk2
        subst hk1
        simp only [List.mem_cons, not_or]
        exact ⟨by omega, fun hm => by have := hct 10 hm; omega⟩
      have e : b :: crlf t = crlf (b :: t) := by simp only [crlf]; rw [if_neg (by omega)]
      rw [e, hk, crlf_append, crlf_none h10, codePoint_encodeCP hcp, codePoint_encodeCP hcp]

theorem codePoint_crlf {b : Nat} {t : Str} (h : Fit (b :: t)) : codePoint (b :: crlf t) = codePoint (b :: t) := by
  by_cases hb : 128 ≤ b
  · exact h 0 b t rfl hb
  · simp only [codePoint]; rw [if_pos (by omega), if_pos (by omega)]

theorem meas_runLen {p : Nat → Bool} (hp : p 13 = p 10) {r : Str} (h : Fit r) : Meas (runLen p) r := by
  induction r with
  | nil => exact .stop rfl rfl
  | cons b t ih =>
    have ih := ih h.tail
    by_cases hb : b = 10
    · subst hb
      by_cases h10 : p 10 = true
      · refine .nl ?_ ?_ ih
        · simp [runLen, isCont, codePoint, hp, h10]; omega
        · simp [runLen, isCont, codePoint, h10]
      · exact .stop (by simp [crlf, runLen, isCont, codePoint, hp, h10]) (by simp [runLen, isCont, codePoint, h10])
    · by_cases hc : isCont b = true
      · exact .cons hb (by simp [runLen, hc]) (by simp [runLen, hc]) ih
      · by_cases hw : p (codePoint (b :: t)) = true
        · exact .cons hb (by simp [runLen, hc, codePoint_crlf h, hw]) (by simp [runLen, hc, hw]) ih
        · exact .stop (by simp [crlf, hb, runLen, hc, codePoint_crlf h, hw]) (by simp [runLen, hc, hw])

/-- A run without line endings. -/
theorem run_no10 {p : Nat → Bool} (hp : p 10 = false) (r : Str) : 10 ∉ r.take (runLen p r) := by
  induction r with
  | nil => simp [runLen]
  | cons b t ih =>
    simp only [runLen]
    split
    · rename_i h
      rw [Nat.add_comm, List.take_succ_cons]
      simp only [List.mem_cons, not_or]
      exact ⟨(by rintro rfl; cases h), ih⟩
    · split
      · rename_i h
        rw [Nat.add_comm, List.take_succ_cons]
        simp only [List.mem_cons, not_or]
        refine ⟨?_, ih⟩
        rintro rfl
        simp [codePoint, hp] at h
      · simp

theorem firstRun_no10 {p q : Nat → Bool} (hp : p 10 = false) (hq : q 10 = false) (r : Str) :
    10 ∉ r.take (firstRunLen p q r) := by
  cases r with
  | nil => simp [firstRunLen]
  | cons b t =>
    simp only [firstRunLen]
    split
    · rename_i h
      rw [Nat.add_comm, List.take_succ_cons]
      simp only [List.mem_cons, not_or]
      refine ⟨?_, run_no10 hq t⟩
      rintro rfl
      simp [codePoint, hp] at h
    · simp

theorem crlf_take {a : Str} {n : Nat} (h : 10 ∉ a.take n) : (crlf a).take n = a.take n := by
  by_cases hn : n ≤ a.length
  · have e : a = a.take n ++ a.drop n := (List.take_append_drop n a).symm
    conv => lhs; rw [e]
    rw [crlf_append, crlf_none h, List.take_left']
    simp [hn]
  · have h' : a.take n = a := List.take_of_length_le (by omega)
    rw [h'] at h ⊢
    rw [crlf_none h, h']

theorem firstRun_crlf {p q : Nat → Bool} (hp : p 10 = false) (hp' : p 13 = false) (hq : q 10 = false) (hq' : q 13 = false)
    {r : Str} (h : Fit r) : firstRunLen p q (crlf r) = firstRunLen p q r := by
  cases r with
  | nil => rfl
  | cons b t =>
    by_cases hb : b = 10
    · subst hb
      simp [crlf, firstRunLen, codePoint, hp, hp']
    · have hm : runLen q (crlf t) = runLen q t := by
        have := meas_runLen (p := q) (by rw [hq, hq']) h.tail
        unfold Meas at this
        rw [this, List.count_eq_zero.2 (run_no10 hq t)]
        rfl
      have e : crlf (b :: t) = b :: crlf t := by simp [crlf, hb]
      rw [e]
      simp only [firstRunLen]
      rw [codePoint_crlf h, hm]

/-! ### Offsets -/

theorem crOff_zero (a : Str) : crOff a 0 = 0 := by simp [crOff]

theorem crOff_add (a : Str) (o n : Nat) : crOff a (o + n) = crOff a o + n + ((a.drop o).take n).count 10 := by
  unfold crOff
  rw [List.take_add, List.count_append]
  omega

theorem crOff_lt {a : Str} {o p : Nat} : crOff a o < crOff a p ↔ o < p := by
  have key : ∀ {o p : Nat}, o ≤ p → crOff a o + (p - o) ≤ crOff a p := by
    intro o p h
    have := crOff_add a o (p - o)
    rw [show o + (p - o) = p by omega] at this
    omega
  rcases Nat.lt_or_ge o p with h | h
  · have := key (Nat.le_of_lt h); omega
  · have := key h; omega

theorem crOff_le {a : Str} {o p : Nat} : crOff a o ≤ crOff a p ↔ o ≤ p := by
  have := crOff_lt (a := a) (o := p) (p := o); omega

theorem crOff_inj {a : Str} {o p : Nat} : crOff a o = crOff a p ↔ o = p := by
  have h1 := crOff_le (a := a) (o := p) (p := o)
  have h2 := crOff_le (a := a) (o := o) (p := p)
  omega

theorem crOff_length (a : Str) : crOff a a.length = (crlf a).length := by
  unfold crOff; rw [List.take_length, crlf_length]

theorem crOff_take {a : Str} {o n : Nat} (h : o ≤ n) : crOff (a.take n) o = crOff a o := by
  unfold crOff
  rw [List.take_take, Nat.min_eq_left h]

theorem crlf_drop (a : Str) (o : Nat) : (crlf a).drop (crOff a o) = crlf (a.drop o) := by
  by_cases h : o ≤ a.length
  · have e : a = a.take o ++ a.drop o := (List.take_append_drop o a).symm
    conv => lhs; arg 2; rw [e]
    rw [crlf_append, List.drop_left']
    rw [crlf_length]
    unfold crOff
    simp [h]
  · rw [List.drop_of_length_le (l := a) (by omega), List.drop_of_length_le]
    · rfl
    · rw [← crOff_length]; exact crOff_le.2 (by omega)

theorem crlf_take_off (a : Str) (o : Nat) : (crlf a).take (crOff a o) = crlf (a.take o) := by
  by_cases h : o ≤ a.length
  · have e : a = a.take o ++ a.drop o := (List.take_append_drop o a).symm
    conv => lhs; arg 2; rw [e]
    rw [crlf_append, List.take_left']
    rw [crlf_length]
    unfold crOff
    simp [h]
  · rw [List.take_of_length_le (l := a) (by omega), List.take_of_length_le]
    rw [← crOff_length]; exact crOff_le.2 (by omega)

theorem crlf_bytesIn {a : Str} {i j : Nat} (h : i ≤ j) : bytesIn (crlf a) (crOff a i) (crOff a j) = crlf (bytesIn a i j) := by
  unfold bytesIn
  rw [crlf_take_off, ← crOff_take h, crlf_drop]

theorem crlf_boundary (a : Str) (o : Nat) : isBoundary (crlf a) (crOff a o) = isBoundary a o := by
  unfold isBoundary
  rw [← crOff_length]
  simp only [crOff_inj]
  split
  · rfl
  · have e : (crlf a)[crOff a o]? = (crlf (a.drop o)).head? := by rw [← crlf_drop]; simp
    rw [e, crlf_head]
    have e2 : a[o]? = (a.drop o).head? := by simp
    rw [e2]
    cases (a.drop o).head? with
    | none => rfl
    | some b =>
      simp only [Option.map_some]
      split
      · rename_i h; subst h; rfl
      · rfl

theorem crlf_slice (a : Str) (i j : Nat) : sliceStr (crlf a) (crOff a i) (crOff a j) = (sliceStr a i j).map crlf := by
  unfold sliceStr
  rw [crlf_boundary, crlf_boundary, ← crOff_length]
  simp only [crOff_le]
  split
  · rename_i h
    simp only [Bool.and_eq_true, decide_eq_true_eq] at h
    exact congrArg Except.ok (crlf_bytesIn h.1.1.1)
  · rfl

/-- The last byte in front of an offset is the same. -/
theorem crlf_last (a : Str) {o : Nat} (h : 0 < o) (ho : o ≤ a.length) : (crlf a)[crOff a o - 1]? = a[o - 1]? := by
  have h1 := crOff_add a (o - 1) 1
  rw [show o - 1 + 1 = o by omega] at h1
  have hb : ∃ b, a[o - 1]? = some b := ⟨_, List.getElem?_eq_getElem (by omega)⟩
  obtain ⟨b, hb⟩ := hb
  have hd : ∃ t, a.drop (o - 1) = b :: t := by
    have e : (a.drop (o - 1)).head? = some b := by simpa using hb
    cases hx : a.drop (o - 1) with
    | nil => rw [hx] at e; cases e
    | cons x t => rw [hx] at e; cases e; exact ⟨t, rfl⟩
  obtain ⟨t, hd⟩ := hd
  have hcr := crlf_drop a (o - 1)
  rw [hd] at hcr h1
  have get : ∀ k, (crlf a)[crOff a (o - 1) + k]? = (crlf (b :: t))[k]? := by
    intro k; rw [← hcr, List.getElem?_drop]
  rw [hb]
  simp only [List.take_succ_cons, List.take_zero] at h1
  by_cases h10 : b = 10
  · subst h10
    simp only [List.count_cons_self, List.count_nil] at h1
    rw [show crOff a o - 1 = crOff a (o - 1) + 1 by omega, get]
    simp [crlf]
  · rw [List.count_cons_of_ne h10, List.count_nil] at h1
    rw [show crOff a o - 1 = crOff a (o - 1) + 0 by omega, get]
    simp [crlf, h10]

end Html
