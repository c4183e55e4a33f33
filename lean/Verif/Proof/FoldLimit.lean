import Verif.Spec.Folding

/-! # Folding ranges: the limit -/

namespace Html
open Spec

/-! ### Sorting -/

theorem insertFold_perm (x : Fold) (l : List Fold) : (insertFold x l).Perm (x :: l) := by
  induction l with
  | nil => exact .refl _
  | cons y l ih =>
    unfold insertFold
    split
    · exact .refl _
    · exact (List.Perm.cons y ih).trans (.swap x y l)

theorem sortFolds_perm (l : List Fold) : (sortFolds l).Perm l := by
  induction l with
  | nil => exact .refl _
  | cons x l ih => exact (insertFold_perm x _).trans (.cons x ih)

theorem Fold.le_iff {a b : Fold} :
    a.le b = true ↔ a.startLine < b.startLine ∨ (a.startLine = b.startLine ∧ a.endLine ≤ b.endLine) := by
  simp [Fold.le]

theorem insertFold_sorted {x : Fold} {l : List Fold} (h : l.Pairwise (fun a b => a.le b = true)) :
    (insertFold x l).Pairwise (fun a b => a.le b = true) := by
  induction l with
  | nil => simp [insertFold]
  | cons y l ih =>
    rw [List.pairwise_cons] at h
    unfold insertFold
    split
    · rename_i hxy
      refine List.pairwise_cons.2 ⟨?_, List.pairwise_cons.2 h⟩
      intro z hz
      rcases List.mem_cons.1 hz with rfl | hz
      · exact hxy
      · have := h.1 z hz
        rw [Fold.le_iff] at *
        omega
    · rename_i hxy
      refine List.pairwise_cons.2 ⟨?_, ih h.2⟩
      intro z hz
      rcases List.mem_cons.1 ((insertFold_perm x l).mem_iff.1 hz) with rfl | hz
      · rw [Fold.le_iff] at *; omega
      · exact h.1 z hz

theorem sortFolds_sorted (l : List Fold) : (sortFolds l).Pairwise (fun a b => a.le b = true) := by
  induction l with
  | nil => exact .nil
  | cons x l ih => exact insertFold_sorted ih

/-- In a sorted well nested list an earlier range contains a later one or ends before it. -/
theorem sorted_nested {l : List Fold} (h : WellNested l) :
    (sortFolds l).Pairwise (fun a b => Contains a b ∨ Before a b) := by
  have hp := sortFolds_perm l
  have h1 : (sortFolds l).Pairwise (fun a b => Contains a b ∨ Contains b a ∨ Before a b ∨ Before b a) :=
    (hp.symm.pairwise_iff (fun {x y} h => by
      rcases h with h | h | h | h
      · exact .inr (.inl h)
      · exact .inl h
      · exact .inr (.inr (.inr h))
      · exact .inr (.inr (.inl h)))).1 h.2
  have h2 := List.Pairwise.and h1 (sortFolds_sorted l)
  refine List.Pairwise.imp_of_mem ?_ h2
  intro a b ha hb hab
  obtain ⟨h3, h4⟩ := hab
  have e1 := h.1 a (hp.mem_iff.1 ha)
  have e2 := h.1 b (hp.mem_iff.1 hb)
  rw [Fold.le_iff] at h4
  rcases h3 with h3 | h3 | h3 | h3
  · exact .inl h3
  · have := h3.1; omega
  · exact .inr h3
  · have : b.endLine < a.startLine := h3
    omega

/-! ### Selection -/

theorem pickFolds_sublist {limit m : Nat} {e : Nat} {rs r : List Fold} {ls : List Nat}
    (h : pickFolds limit m e rs ls = .ok r) : r.Sublist rs := by
  induction rs generalizing e ls r with
  | nil => unfold pickFolds at h; cases h; exact .refl _
  | cons x rs ih =>
    cases ls with
    | nil => cases h
    | cons l ls =>
      unfold pickFolds at h
      split at h
      · split at h
        · cases h1 : pickFolds limit m (e + 1) rs ls with
          | error _ => rw [h1] at h; cases h
          | ok t =>
            rw [h1] at h
            cases h
            split
            · exact (ih h1).cons_cons x
            · exact (ih h1).cons x
        · cases h1 : pickFolds limit m e rs ls with
          | error _ => rw [h1] at h; cases h
          | ok t =>
            rw [h1] at h
            cases h
            exact (ih h1).cons_cons x
      · exact (ih h).cons x

theorem limitRanges_sublist {l r : List Fold} {limit : Nat} (h : limitRanges l limit = .ok r) :
    r.Sublist (sortFolds l) := pickFolds_sublist h

theorem pickFolds_ok {limit m : Nat} (f : Fold → Nat) (e : Nat) (rs : List Fold) :
    ∃ r, pickFolds limit m e rs (rs.map f) = .ok r ∧
      r.length = (rs.filter (fun x => f x < m)).length +
        min (limit - e) (rs.filter (fun x => f x = m)).length ∧
      (∀ x ∈ r, x ∈ rs ∧ f x ≤ m) ∧ ∀ x ∈ rs, f x < m → x ∈ r := by
  induction rs generalizing e with
  | nil => exact ⟨[], rfl, by simp, by simp, by simp⟩
  | cons x rs ih =>
    simp only [List.map_cons]
    unfold pickFolds
    by_cases h1 : f x ≤ m
    · rw [if_pos h1]
      by_cases h2 : f x = m
      · rw [if_pos h2]
        obtain ⟨r, hr, hl, ha, hb⟩ := ih (e + 1)
        rw [hr]
        refine ⟨_, rfl, ?_, ?_, ?_⟩
        · rw [List.filter_cons_of_neg (by simp; omega), List.filter_cons_of_pos (by simpa using h2)]
          simp only [List.length_cons]
          split
          · simp only [List.length_cons]; omega
          · omega
        · intro y hy
          split at hy
          · rcases List.mem_cons.1 hy with rfl | hy
            · exact ⟨by simp, h1⟩
            · exact ⟨List.mem_cons_of_mem _ (ha y hy).1, (ha y hy).2⟩
          · exact ⟨List.mem_cons_of_mem _ (ha y hy).1, (ha y hy).2⟩
        · intro y hy hlt
          rcases List.mem_cons.1 hy with rfl | hy
          · omega
          · split
            · exact List.mem_cons_of_mem _ (hb y hy hlt)
            · exact hb y hy hlt
      · rw [if_neg h2]
        obtain ⟨r, hr, hl, ha, hb⟩ := ih e
        rw [hr]
        refine ⟨_, rfl, ?_, ?_, ?_⟩
        · rw [List.filter_cons_of_pos (by simp; omega), List.filter_cons_of_neg (by simpa using h2)]
          simp only [List.length_cons]
          omega
        · intro y hy
          rcases List.mem_cons.1 hy with rfl | hy
          · exact ⟨by simp, h1⟩
          · exact ⟨List.mem_cons_of_mem _ (ha y hy).1, (ha y hy).2⟩
        · intro y hy hlt
          rcases List.mem_cons.1 hy with rfl | hy
          · simp
          · exact List.mem_cons_of_mem _ (hb y hy hlt)
    · rw [if_neg h1]
      obtain ⟨r, hr, hl, ha, hb⟩ := ih e
      refine ⟨r, hr, ?_, ?_, ?_⟩
      · rw [List.filter_cons_of_neg (by simp; omega), List.filter_cons_of_neg (by simp; omega)]
        exact hl
      · intro y hy
        exact ⟨List.mem_cons_of_mem _ (ha y hy).1, (ha y hy).2⟩
      · intro y hy hlt
        rcases List.mem_cons.1 hy with rfl | hy
        · omega
        · exact hb y hy hlt

theorem maxLevel_spec {limit i e : Nat} {cs : List Nat} (he : e ≤ limit) :
    (∃ j, j < cs.length ∧ maxLevel limit i e cs = (i + j, e + (cs.take j).sum) ∧
      e + (cs.take j).sum ≤ limit ∧ limit < e + (cs.take j).sum + cs.getD j 0) ∨
    (maxLevel limit i e cs = (0, e + cs.sum) ∧ e + cs.sum ≤ limit) := by
  induction cs generalizing i e with
  | nil => right; exact ⟨rfl, he⟩
  | cons n cs ih =>
    unfold maxLevel
    by_cases h0 : n > 0
    · rw [if_pos h0]
      by_cases h1 : n + e > limit
      · rw [if_pos h1]
        left
        exact ⟨0, by simp, rfl, he, by simp; omega⟩
      · rw [if_neg h1]
        rcases ih (i := i + 1) (e := e + n) (by omega) with ⟨j, h2, h3, h4, h5⟩ | ⟨h2, h3⟩
        · left
          refine ⟨j + 1, by simp; omega, ?_, ?_, ?_⟩
          · rw [h3]; simp only [List.take_succ_cons, List.sum_cons]; congr 1 <;> omega
          · simp only [List.take_succ_cons, List.sum_cons]; omega
          · simp only [List.take_succ_cons, List.sum_cons, List.getD_cons_succ]; omega
        · right
          refine ⟨?_, ?_⟩
          · rw [h2, List.sum_cons]; congr 1; omega
          · rw [List.sum_cons]; omega
    · rw [if_neg h0]
      have : n = 0 := by omega
      subst this
      rcases ih (i := i + 1) (e := e) he with ⟨j, h2, h3, h4, h5⟩ | ⟨h2, h3⟩
      · left
        refine ⟨j + 1, by simp; omega, ?_, ?_, ?_⟩
        · rw [h3]; simp only [List.take_succ_cons, List.sum_cons]; congr 1 <;> omega
        · simp only [List.take_succ_cons, List.sum_cons]; omega
        · simp only [List.take_succ_cons, List.sum_cons, List.getD_cons_succ]; omega
      · right
        exact ⟨by rw [h2, List.sum_cons]; congr 1; omega, by rw [List.sum_cons]; omega⟩

/-! ### Levels -/

/-- The counters are correct for the levels below 30. -/
def CountsOK (levels counts : List Nat) : Prop :=
  counts.length ≤ 30 ∧ ∀ l, l < 30 → counts.getD l 0 = (levels.filter (· = l)).length

theorem getD_set {l : List Nat} {i j v : Nat} (h : i < l.length) :
    (l.set i v).getD j 0 = if j = i then v else l.getD j 0 := by
  simp only [List.getD_eq_getElem?_getD, List.getElem?_set]
  by_cases hij : i = j
  · subst hij; simp [h]
  · rw [if_neg hij, if_neg (fun h => hij h.symm)]

theorem getD_pad {l : List Nat} {n j : Nat} : (l ++ List.replicate n 0).getD j 0 = l.getD j 0 := by
  simp only [List.getD_eq_getElem?_getD, List.getElem?_append]
  split
  · rfl
  · rename_i h
    rw [List.getElem?_replicate, List.getElem?_eq_none (by omega)]
    split <;> rfl

theorem setLevel_counts {i level : Nat} {s : LimitState} (hl : s.levels.length = i)
    (h : CountsOK s.levels s.counts) :
    (setLevel i level s).levels = s.levels ++ [level] ∧
    CountsOK (setLevel i level s).levels (setLevel i level s).counts := by
  have e1 : (setLevel i level s).levels = s.levels ++ [level] := by
    unfold setLevel
    simp [hl]
  refine ⟨e1, ?_⟩
  rw [e1]
  unfold setLevel CountsOK
  simp only
  obtain ⟨h1, h2⟩ := h
  split
  · rename_i hlt
    refine ⟨by simp; omega, ?_⟩
    intro l hl
    rw [getD_set (by simp; omega), getD_pad, getD_pad, List.filter_append, List.length_append]
    split
    · rename_i he; subst he; rw [h2 l hl, List.filter_cons_of_pos (by simp)]; simp
    · rename_i hne
      rw [h2 l hl, List.filter_cons_of_neg (by simp; omega)]; simp
  · rename_i hge
    refine ⟨h1, fun l hl => ?_⟩
    rw [h2 l hl, List.filter_append, List.filter_cons_of_neg (by simp; omega)]; simp

/-- Sum of the counters below `m` = number of levels below `m`. -/
theorem counts_sum {levels counts : List Nat} (h : CountsOK levels counts) {m : Nat} (hm : m ≤ 30) :
    (counts.take m).sum = (levels.filter (· < m)).length := by
  induction m with
  | zero =>
    rw [List.filter_eq_nil_iff.2 (fun x _ => by simp)]
    rfl
  | succ m ih =>
    have h1 : (counts.take (m + 1)).sum = (counts.take m).sum + counts.getD m 0 := by
      rw [List.take_add_one, List.sum_append, List.getD_eq_getElem?_getD]
      cases counts[m]? <;> simp
    have h2 : ∀ l : List Nat, (l.filter (· < m + 1)).length =
        (l.filter (· < m)).length + (l.filter (· = m)).length := by
      intro l
      induction l with
      | nil => rfl
      | cons x l ih =>
        simp only [List.filter_cons]
        rcases Nat.lt_trichotomy x m with h | h | h
        · have e1 : x < m + 1 := by omega
          have e2 : x ≠ m := by omega
          simp only [h, e1, e2, decide_true, decide_false, if_true, List.length_cons]
          simp only [Bool.false_eq_true, if_false]; omega
        · subst h
          simp; omega
        · have e1 : ¬ x < m + 1 := by omega
          have e2 : x ≠ m := by omega
          have e3 : ¬ x < m := by omega
          simp only [e1, e2, e3, decide_false, Bool.false_eq_true, if_false]; omega
    rw [h1, h2, ih (by omega), h.2 m (by omega)]

/-- The loop has treated the ranges `done`. -/
structure LevelInv (done : List Fold) (s : LimitState) : Prop where
  levels : s.levels = done.map (depth done)
  counts : CountsOK s.levels s.counts
  empty : done = [] → s.top = none ∧ s.previous = []
  last : ∀ init t, done = init ++ [t] → s.top = some t ∧ s.previous.reverse = done.filter (fun a => Contains a t)

theorem popEnded_chain {e : Fold} {l : List Fold} (h : l.Pairwise (fun a b => a.endLine ≤ b.endLine)) :
    popEnded e l = l.filter (fun a => ¬ Before a e) := by
  induction l with
  | nil => rfl
  | cons t l ih =>
    rw [List.pairwise_cons] at h
    unfold popEnded
    by_cases hb : e.startLine > t.endLine
    · rw [if_pos hb, List.filter_cons_of_neg (by simpa [Before] using hb)]
      exact ih h.2
    · rw [if_neg hb, List.filter_eq_self.2]
      intro a ha
      rw [decide_eq_true_eq]
      show ¬ a.endLine < e.startLine
      rcases List.mem_cons.1 ha with rfl | ha
      · exact hb
      · have := h.1 a ha
        exact fun h => hb (Nat.lt_of_le_of_lt this h)

theorem depth_snoc {done : List Fold} {e x : Fold} (h : ¬ Contains e x) :
    depth (done ++ [e]) x = depth done x := by
  unfold depth
  rw [List.filter_append, List.filter_cons_of_neg (by simpa using h)]; simp

theorem limitStep_inv {done : List Fold} {e : Fold} {s : LimitState}
    (hp : (done ++ [e]).Pairwise (fun a b => Contains a b ∨ Before a b))
    (hw : ∀ a ∈ done ++ [e], a.startLine ≤ a.endLine) (h : LevelInv done s) :
    LevelInv (done ++ [e]) (limitStep done.length e s) := by
  rw [List.pairwise_append] at hp
  obtain ⟨hp1, _, hp2⟩ := hp
  have hp2 : ∀ a ∈ done, Contains a e ∨ Before a e := fun a ha => hp2 a ha e (by simp)
  have he : e.startLine ≤ e.endLine := hw e (by simp)
  have hnc : ∀ a ∈ done ++ [e], ¬ Contains e a := by
    intro a ha hc
    rcases List.mem_append.1 ha with ha | ha
    · have := hw a (List.mem_append_left _ ha)
      rcases hp2 a ha with h1 | h1
      · have := h1.1; have := hc.1; omega
      · have h1 : a.endLine < e.startLine := h1
        have := hc.1; omega
    · rw [List.mem_singleton] at ha; subst ha; have := hc.1; omega
  have hlen : s.levels.length = done.length := by rw [h.levels]; simp
  have hlev : s.levels = done.map (depth (done ++ [e])) := by
    rw [h.levels]
    exact List.map_congr_left (fun a ha => (depth_snoc (hnc a (List.mem_append_left _ ha))).symm)
  have build : ∀ prev : List Fold, prev.reverse = done.filter (fun a => Contains a e) →
      ∀ s' : LimitState, s'.levels = s.levels → s'.counts = s.counts → s'.top = some e → s'.previous = prev →
      LevelInv (done ++ [e]) (setLevel done.length prev.length s') := by
    intro prev hprev s' e1 e2 e3 e4
    have h1 := setLevel_counts (i := done.length) (level := prev.length) (s := s') (by rw [e1]; exact hlen)
      (by rw [e1, e2]; exact h.counts)
    refine ⟨?_, h1.2, by simp, ?_⟩
    · rw [h1.1, e1, hlev, List.map_append]
      congr 1
      simp only [List.map_cons, List.map_nil]
      rw [depth_snoc (hnc e (by simp))]
      unfold depth
      rw [← hprev, List.length_reverse]
    · intro init t ht
      have := List.append_inj' ht rfl
      obtain ⟨-, ht'⟩ := this
      cases ht'
      refine ⟨e3, ?_⟩
      show s'.previous.reverse = _
      rw [e4, hprev, List.filter_append, List.filter_cons_of_neg (by simpa using hnc e (by simp))]
      simp
  unfold limitStep
  rcases List.eq_nil_or_concat done with hd | ⟨init, t, hd⟩
  · subst hd
    obtain ⟨h1, h2⟩ := h.empty rfl
    rw [h1]
    exact build [] rfl _ rfl rfl rfl h2
  · rw [List.concat_eq_append] at hd
    obtain ⟨h1, h2⟩ := h.last init t hd
    rw [h1]
    simp only
    have ht : t ∈ done := by rw [hd]; simp
    have hwt := hw t (List.mem_append_left _ ht)
    have hinit : ∀ x ∈ init, Contains x t ∨ Before x t := by
      rw [hd, List.pairwise_append] at hp1
      exact fun x hx => hp1.2.2 x hx t (by simp)
    have hstart : e.startLine > t.startLine := by
      rcases hp2 t ht with h | h
      · exact h.1
      · have h : t.endLine < e.startLine := h
        omega
    rw [if_pos hstart]
    by_cases hend : e.endLine ≤ t.endLine
    · rw [if_pos hend]
      refine build (t :: s.previous) ?_ _ rfl rfl rfl rfl
      rw [List.reverse_cons, h2, hd, List.filter_append, List.filter_append,
        List.filter_cons_of_neg (by simp [Contains]), List.filter_cons_of_pos (p := fun a => decide (Contains a e)) (decide_eq_true ⟨hstart, hend⟩)]
      simp only [List.filter_nil, List.append_nil]
      congr 1
      apply List.filter_congr
      intro x hx
      rw [decide_eq_decide]
      constructor
      · intro hc; exact ⟨by have := hc.1; omega, by have := hc.2; omega⟩
      · intro hc
        rcases hinit x hx with h3 | h3
        · exact h3
        · have h3 : x.endLine < t.startLine := h3
          have := hc.2; omega
    · rw [if_neg hend]
      have hbef : e.startLine > t.endLine := by
        rcases hp2 t ht with h | h
        · exact absurd h.2 hend
        · exact h
      rw [if_pos hbef]
      refine build (popEnded e s.previous) ?_ _ rfl rfl rfl rfl
      have hchain : s.previous.Pairwise (fun a b => a.endLine ≤ b.endLine) := by
        rw [← List.pairwise_reverse, h2]
        have := hp1.filter (fun a => decide (Contains a t))
        refine List.Pairwise.imp_of_mem ?_ this
        intro a b ha hb hab
        rw [List.mem_filter, decide_eq_true_eq] at ha hb
        rcases hab with hab | hab
        · exact hab.2
        · have hab : a.endLine < b.startLine := hab
          have := ha.2.2; have := hb.2.1; omega
      rw [popEnded_chain hchain, ← List.filter_reverse, h2, List.filter_filter]
      apply List.filter_congr
      intro x hx
      rw [← Bool.decide_and, decide_eq_decide]
      constructor
      · rintro ⟨h3, h4⟩
        rcases hp2 x hx with h5 | h5
        · exact h5
        · exact absurd h5 h3
      · intro hc
        refine ⟨fun hb => ?_, ?_⟩
        · have hb : x.endLine < e.startLine := hb
          have := hc.2; omega
        · rw [hd] at hx
          rcases List.mem_append.1 hx with hx | hx
          · rcases hinit x hx with h3 | h3
            · exact h3
            · have h3 : x.endLine < t.startLine := h3
              have := hc.2; omega
          · rw [List.mem_singleton] at hx
            subst hx
            exact absurd hc.2 hend

theorem limitLoop_inv {rest done : List Fold} {s : LimitState}
    (hp : (done ++ rest).Pairwise (fun a b => Contains a b ∨ Before a b))
    (hw : ∀ a ∈ done ++ rest, a.startLine ≤ a.endLine) (h : LevelInv done s) :
    LevelInv (done ++ rest) (limitLoop done.length rest s) := by
  induction rest generalizing done s with
  | nil => simpa [limitLoop] using h
  | cons e rest ih =>
    unfold limitLoop
    have e1 : done ++ e :: rest = (done ++ [e]) ++ rest := by simp
    rw [e1] at hp hw ⊢
    have := ih hp hw (limitStep_inv (List.pairwise_append.1 hp).1
      (fun a ha => hw a (List.mem_append_left _ ha)) h)
    rwa [List.length_append] at this

theorem filter_map_length {f : Fold → Nat} {p : Nat → Bool} {l : List Fold} :
    ((l.map f).filter p).length = (l.filter (fun x => p (f x))).length := by
  induction l with
  | nil => rfl
  | cons x l ih =>
    simp only [List.map_cons, List.filter_cons]
    split <;> simp [ih]

/-- The limit for well nested ranges. -/
theorem limitRanges_nested {l : List Fold} {limit : Nat} (h : WellNested l) :
    ∃ r m, limitRanges l limit = .ok r ∧ r.Sublist (sortFolds l) ∧ r.length ≤ limit ∧
      ((∀ x ∈ l, depth l x < 30) → limit < l.length → r.length = limit) ∧
      (∀ x ∈ r, depth l x ≤ m) ∧ ∀ x ∈ l, depth l x < m → x ∈ r := by
  have hp := sortFolds_perm l
  have hdep : ∀ x, depth (sortFolds l) x = depth l x := fun x => (hp.filter _).length_eq
  have hinv : LevelInv (sortFolds l) (limitLoop 0 (sortFolds l) ⟨none, [], [], []⟩) := by
    have := limitLoop_inv (done := []) (rest := sortFolds l) (s := ⟨none, [], [], []⟩)
      (by simpa using sorted_nested h) (fun a ha => h.1 a (hp.mem_iff.1 (by simpa using ha)))
      ⟨rfl, ⟨by simp, fun l _ => by simp⟩, fun _ => ⟨rfl, rfl⟩, fun init t ht => by simp at ht⟩
    simpa using this
  unfold limitRanges
  simp only
  generalize hs : limitLoop 0 (sortFolds l) ⟨none, [], [], []⟩ = s at hinv
  have hlev := hinv.levels
  have hc := hinv.counts
  rw [show depth (sortFolds l) = depth l from funext hdep] at hlev
  rw [hlev] at hc ⊢
  obtain ⟨r, hr, hlen, ha, hb⟩ := pickFolds_ok (limit := limit) (m := (maxLevel limit 0 0 s.counts).1)
    (depth l) (maxLevel limit 0 0 s.counts).2 (sortFolds l)
  refine ⟨r, (maxLevel limit 0 0 s.counts).1, hr, pickFolds_sublist hr, ?_, ?_, fun x hx => (ha x hx).2,
    fun x hx => hb x (hp.mem_iff.2 hx)⟩
  · rcases maxLevel_spec (i := 0) (cs := s.counts) (Nat.zero_le limit) with ⟨j, h1, h2, h3, h4⟩ | ⟨h1, h2⟩
    · rw [h2] at hlen
      have h30 := hc.1
      have := counts_sum hc (m := j) (by omega)
      rw [filter_map_length] at this
      simp only [Nat.zero_add] at *
      omega
    · rw [h1] at hlen
      have e1 : (sortFolds l).filter (fun x => depth l x < 0) = [] :=
        List.filter_eq_nil_iff.2 (fun x _ => by simp)
      simp only [e1, List.length_nil] at hlen
      omega
  · intro hdeep hlim
    rcases maxLevel_spec (i := 0) (cs := s.counts) (Nat.zero_le limit) with ⟨j, h1, h2, h3, h4⟩ | ⟨h1, h2⟩
    · rw [h2] at hlen
      have h30 := hc.1
      have e1 := counts_sum hc (m := j) (by omega)
      rw [filter_map_length] at e1
      have e2 := hc.2 j (by omega)
      rw [filter_map_length] at e2
      simp only [Nat.zero_add] at *
      omega
    · exfalso
      have h30 := hc.1
      have e1 := counts_sum hc (m := 30) (Nat.le_refl _)
      rw [List.take_of_length_le h30, filter_map_length, List.filter_eq_self.2 (fun x hx => by
        simpa using hdeep x (hp.mem_iff.1 hx)), hp.length_eq] at e1
      omega

theorem depth_lt {l : List Fold} {a b : Fold} (ha : a ∈ l) (h : Contains a b) : depth l a < depth l b := by
  have hb : a.startLine < b.startLine := h.1
  induction l with
  | nil => cases ha
  | cons x l ih =>
    have mono : depth l a ≤ depth l b := by
      unfold depth
      simp only [← List.countP_eq_length_filter]
      refine List.countP_mono_left (fun c _ hc => ?_)
      rw [decide_eq_true_eq] at hc ⊢
      exact ⟨Nat.lt_trans hc.1 hb, Nat.le_trans h.2 hc.2⟩
    unfold depth at *
    by_cases hxa : Contains x a
    · have hxb : Contains x b := ⟨by have := hxa.1; omega, by have := hxa.2; have := h.2; omega⟩
      rw [List.filter_cons_of_pos (by simpa using hxa), List.filter_cons_of_pos (by simpa using hxb)]
      simp only [List.length_cons]
      rcases List.mem_cons.1 ha with rfl | ha
      · have := hxa.1; omega
      · have := ih ha; omega
    · rw [List.filter_cons_of_neg (by simpa using hxa)]
      rcases List.mem_cons.1 ha with rfl | ha
      · rw [List.filter_cons_of_pos (by simpa using h)]
        simp only [List.length_cons]; omega
      · have := ih ha
        rw [List.filter_cons]
        split
        · simp only [List.length_cons]; omega
        · exact this

end Html
