import Verif.Proof.FoldLimit
import Verif.Proof.Folding
import Verif.Proof.Panics

/-! # When folding panics, and the limit for ranges that overlap -/

namespace Html
open Spec

/-! ### The limit -/

theorem limitLoop_append {i : Nat} {l l' : List Fold} {s : LimitState} :
    limitLoop i (l ++ l') s = limitLoop (i + l.length) l' (limitLoop i l s) := by
  induction l generalizing i s with
  | nil => rfl
  | cons e l ih =>
    simp only [List.cons_append, limitLoop, ih, List.length_cons]
    rw [Nat.add_right_comm, Nat.add_assoc]

/-- The loop over ranges of which `ks` were taken into account. -/
structure Counted (n : Nat) (ks : List Fold) (s : LimitState) : Prop where
  top : s.top = ks.getLast?
  len : s.levels.length ≤ n
  counts : ∃ cl : List Nat, cl.Sublist s.levels ∧ cl.length = ks.length ∧ CountsOK cl s.counts

theorem Counted.set {n level : Nat} {ks : List Fold} {s s' : LimitState} {e : Fold} (h : Counted n ks s)
    (h1 : s'.levels = s.levels) (h2 : s'.counts = s.counts) (h3 : s'.top = some e) :
    Counted (n + 1) (ks ++ [e]) (setLevel n level s') ∧ (setLevel n level s').levels.length = n + 1 := by
  obtain ⟨cl, k1, k2, k3⟩ := h.counts
  have hlen : (setLevel n level s').levels.length = n + 1 := by
    have := h.len
    unfold setLevel
    simp [h1]
    omega
  refine ⟨⟨by simpa [setLevel] using h3, by omega, cl ++ [level], ?_, by simp [k2], ?_⟩, hlen⟩
  · unfold setLevel
    simp only [h1]
    exact (k1.trans (List.sublist_append_left _ _)).append (List.Sublist.refl _)
  · have := (setLevel_counts (i := cl.length) (level := level) (s := { s' with levels := cl }) rfl (by
      simp only [h2]; exact k3)).2
    simpa [setLevel] using this

theorem Counted.step {n : Nat} {ks : List Fold} {s : LimitState} (h : Counted n ks s) (e : Fold)
    (hw : ∀ t ∈ ks, t.startLine ≤ t.endLine) :
    if ∀ t ∈ ks.getLast?, Contains t e ∨ Before t e then
      Counted (n + 1) (ks ++ [e]) (limitStep n e s) ∧ (limitStep n e s).levels.length = n + 1
    else Counted (n + 1) ks (limitStep n e s) ∧ (limitStep n e s).levels.length < n + 1 := by
  unfold limitStep
  rw [h.top]
  cases hk : ks.getLast? with
  | none =>
    rw [if_pos (by simp)]
    exact h.set rfl rfl rfl
  | some t =>
    have ht := hw t (List.mem_of_getLast? hk)
    have skip : Counted (n + 1) ks s ∧ s.levels.length < n + 1 :=
      ⟨⟨h.top, Nat.le_succ_of_le h.len, h.counts⟩, Nat.lt_succ_of_le h.len⟩
    by_cases h1 : e.startLine > t.startLine
    · by_cases h2 : e.endLine ≤ t.endLine
      · rw [if_pos (by simp [Contains, h1, h2])]
        simp only [h1, h2, if_true]
        exact h.set rfl rfl rfl
      · by_cases h3 : e.startLine > t.endLine
        · rw [if_pos (by simp [Before, h3])]
          simp only [h1, h2, h3, if_true, if_false]
          exact h.set rfl rfl rfl
        · rw [if_neg (by simp [Contains, Before]; omega)]
          simp only [h1, h2, h3, if_true, if_false]
          exact skip
    · rw [if_neg (by simp [Contains, Before]; omega)]
      simp only [h1, if_false]
      exact skip

theorem considered_sublist {top : Option Fold} {l : List Fold} : (considered top l).Sublist l := by
  induction l generalizing top with
  | nil => exact .refl _
  | cons e l ih =>
    unfold considered
    split
    · exact ih.cons_cons e
    · exact ih.cons e

theorem considered_snoc {ks l : List Fold} {e : Fold} :
    ks ++ considered ks.getLast? (l ++ [e]) =
      (ks ++ considered ks.getLast? l) ++
        if ∀ t ∈ (ks ++ considered ks.getLast? l).getLast?, Contains t e ∨ Before t e then [e] else [] := by
  induction l generalizing ks with
  | nil => simp [considered]
  | cons x l ih =>
    simp only [List.cons_append, considered]
    split
    · have := ih (ks := ks ++ [x])
      simpa using this
    · exact ih

theorem considered_concat {l : List Fold} {e : Fold} :
    considered none (l ++ [e]) = considered none l ++
      if ∀ t ∈ (considered none l).getLast?, Contains t e ∨ Before t e then [e] else [] := by
  simpa using considered_snoc (ks := []) (l := l) (e := e)

theorem limitLoop_counted {l : List Fold} (hw : ∀ t ∈ l, t.startLine ≤ t.endLine) :
    Counted l.length (considered none l) (limitLoop 0 l ⟨none, [], [], []⟩) := by
  induction hn : l.length generalizing l with
  | zero =>
    have : l = [] := List.eq_nil_of_length_eq_zero hn
    subst this
    exact ⟨rfl, by simp [limitLoop], [], .slnil, rfl, ⟨by simp [limitLoop], fun l _ => by simp [limitLoop]⟩⟩
  | succ n ih =>
    rcases List.eq_nil_or_concat l with rfl | ⟨l, e, rfl⟩
    · cases hn
    · rw [List.concat_eq_append] at *
      have hl : l.length = n := by simpa using hn
      have := (ih (fun t ht => hw t (List.mem_append_left _ ht)) hl).step e
        (fun t ht => hw t (List.mem_append_left _ (considered_sublist.subset ht)))
      rw [limitLoop_append, considered_concat]
      simp only [limitLoop, Nat.zero_add, hl]
      split at this
      · rename_i hc; rw [if_pos hc]; exact this.1
      · rename_i hc; rw [if_neg hc, List.append_nil]; exact this.1

theorem limitLoop_last {l : List Fold} {e : Fold} (hw : ∀ t ∈ l, t.startLine ≤ t.endLine) :
    (limitLoop 0 (l ++ [e]) ⟨none, [], [], []⟩).levels.length < l.length + 1 ↔
      ∃ t, (considered none l).getLast? = some t ∧ ¬ Contains t e ∧ ¬ Before t e := by
  have := (limitLoop_counted hw).step e (fun t ht => hw t (considered_sublist.subset ht))
  rw [limitLoop_append]
  simp only [limitLoop, Nat.zero_add]
  split at this
  · rename_i hc
    constructor
    · intro h; omega
    · rintro ⟨t, h1, h2, h3⟩
      rcases hc t (by simp [h1]) with h | h
      · exact absurd h h2
      · exact absurd h h3
  · rename_i hc
    refine ⟨fun _ => ?_, fun _ => this.2⟩
    cases hk : (considered none l).getLast? with
    | none => exact absurd (by simp [hk]) hc
    | some t =>
      rw [hk] at hc
      refine ⟨t, rfl, fun h => hc (by simp [h]), fun h => hc (by simp [h])⟩

theorem pickFolds_error {limit m e : Nat} {rs : List Fold} {ls : List Nat} :
    (∃ x, pickFolds limit m e rs ls = .error x) ↔ ls.length < rs.length := by
  induction rs generalizing e ls with
  | nil => simp [pickFolds]
  | cons r rs ih =>
    cases ls with
    | nil => simp [pickFolds]
    | cons l ls =>
      have key : ∀ k (g : List Fold → List Fold), (∃ x, (pickFolds limit m k rs ls).bind (fun t => .ok (g t)) = .error x) ↔
          ls.length < rs.length := by
        intro k g
        rw [← ih (e := k)]
        cases pickFolds limit m k rs ls <;> simp [Except.bind]
      unfold pickFolds
      simp only [List.length_cons, Nat.add_lt_add_iff_right]
      split
      · split
        · exact key (e + 1) (fun t => if e < limit then r :: t else t)
        · exact key e (fun t => r :: t)
      · exact ih

theorem pickFolds_length {limit m e : Nat} {rs r : List Fold} {ls : List Nat}
    (h : pickFolds limit m e rs ls = .ok r) : r.length ≤ (ls.filter (· < m)).length + (limit - e) := by
  induction rs generalizing e ls r with
  | nil => simp [pickFolds] at h; subst h; simp
  | cons x rs ih =>
    cases ls with
    | nil => simp [pickFolds] at h
    | cons l ls =>
      unfold pickFolds at h
      split at h
      · split at h
        · obtain ⟨t, h1, h2⟩ := bind_ok h
          have := ih h1
          cases h2
          rw [List.filter_cons_of_neg (by simp; omega)]
          split
          · simp only [List.length_cons]; omega
          · omega
        · obtain ⟨t, h1, h2⟩ := bind_ok h
          have := ih h1
          cases h2
          rw [List.filter_cons_of_pos (by simp; omega)]
          simp only [List.length_cons]; omega
      · rw [List.filter_cons_of_neg (by simp; omega)]
        exact ih h

theorem filter_sublist_le {a b : List Nat} (h : a.Sublist b) (p : Nat → Bool) :
    (b.filter p).length + a.length ≤ (a.filter p).length + b.length := by
  induction h with
  | slnil => simp
  | cons x _ ih =>
    rw [List.filter_cons]
    split <;> simp only [List.length_cons] <;> omega
  | cons_cons x _ ih =>
    rw [List.filter_cons, List.filter_cons]
    split <;> simp only [List.length_cons] <;> omega

theorem limitRanges_bound {l r : List Fold} {limit : Nat} (hw : ∀ t ∈ l, t.startLine ≤ t.endLine)
    (h : limitRanges l limit = .ok r) :
    r.length + (considered none (sortFolds l)).length ≤ limit + l.length := by
  have hp := sortFolds_perm l
  have hk := limitLoop_counted (l := sortFolds l) (fun t ht => hw t (hp.mem_iff.1 ht))
  unfold limitRanges at h
  simp only at h
  generalize limitLoop 0 (sortFolds l) ⟨none, [], [], []⟩ = s at hk h
  have h1 := pickFolds_length h
  obtain ⟨cl, k1, k2, k3⟩ := hk.counts
  have hlen := hk.len
  rw [hp.length_eq] at hlen
  have hks : (considered none (sortFolds l)).length ≤ l.length := by
    rw [← hp.length_eq]; exact considered_sublist.length_le
  rcases maxLevel_spec (i := 0) (cs := s.counts) (Nat.zero_le limit) with ⟨j, m1, m2, m3, m4⟩ | ⟨m1, m2⟩
  · rw [m2] at h1
    simp only [Nat.zero_add] at *
    have h2 := filter_sublist_le k1 (fun x => decide (x < j))
    have h30 := k3.1
    have h3 := counts_sum k3 (m := j) (by omega)
    omega
  · rw [m1] at h1
    simp only [Nat.zero_add] at *
    have : s.levels.filter (fun x => decide (x < 0)) = [] := List.filter_eq_nil_iff.2 (fun x _ => by simp)
    rw [this] at h1
    simp only [List.length_nil] at h1
    omega

theorem limitRanges_panics {l : List Fold} {limit : Nat} (hw : ∀ t ∈ l, t.startLine ≤ t.endLine) :
    (∃ x, limitRanges l limit = .error x) ↔
      ∃ init r t, sortFolds l = init ++ [r] ∧ (considered none init).getLast? = some t ∧
        ¬ Contains t r ∧ ¬ Before t r := by
  have hp := sortFolds_perm l
  unfold limitRanges
  simp only
  rw [pickFolds_error]
  rcases List.eq_nil_or_concat (sortFolds l) with h | ⟨init, r, h⟩
  · rw [h]; simp
  · rw [List.concat_eq_append] at h
    rw [h, List.length_append]
    have := limitLoop_last (l := init) (e := r) (fun t ht => hw t (hp.mem_iff.1 (by rw [h]; simp [ht])))
    refine Iff.trans this ?_
    constructor
    · rintro ⟨t, h1⟩; exact ⟨init, r, t, rfl, h1⟩
    · rintro ⟨init', r', t, h1, h2⟩
      have := List.append_inj' h1 rfl
      obtain ⟨rfl, h3⟩ := this
      cases h3
      exact ⟨t, h2⟩

/-! ### Only the lines matter -/

/-- The lines of a range. -/
def Fold.lines (a : Fold) : Nat × Nat := (a.startLine, a.endLine)

theorem lines_eq {a b : Fold} (h : a.lines = b.lines) : a.startLine = b.startLine ∧ a.endLine = b.endLine := by
  unfold Fold.lines at h
  simpa using h

theorem byLines_unique {l a b : List Fold} (ha : ByLines l a) (hb : ByLines l b) : a.map Fold.lines = b.map Fold.lines := by
  refine List.Perm.eq_of_pairwise (le := fun x y : Nat × Nat => x.1 < y.1 ∨ (x.1 = y.1 ∧ x.2 ≤ y.2)) ?_ ?_ ?_ ?_
  · rintro ⟨x1, x2⟩ ⟨y1, y2⟩ _ _ h1 h2
    simp only at h1 h2
    rw [Prod.mk.injEq]
    omega
  · exact List.pairwise_map.2 ha.2
  · exact List.pairwise_map.2 hb.2
  · exact (ha.1.trans hb.1.symm).map _

theorem considered_lines {s t : Option Fold} {a b : List Fold} (h : a.map Fold.lines = b.map Fold.lines)
    (hs : s.map Fold.lines = t.map Fold.lines) :
    (considered s a).map Fold.lines = (considered t b).map Fold.lines := by
  induction a generalizing b s t with
  | nil =>
    have : b = [] := by simpa using h.symm
    subst this; rfl
  | cons x a ih =>
    cases b with
    | nil => simp at h
    | cons y b =>
      simp only [List.map_cons, List.cons.injEq] at h
      obtain ⟨h1, h2⟩ := h
      have e1 := lines_eq h1
      have hc : (∀ u ∈ s, Contains u x ∨ Before u x) ↔ ∀ u ∈ t, Contains u y ∨ Before u y := by
        cases s with
        | none =>
          cases t with
          | none => simp
          | some _ => simp at hs
        | some s =>
          cases t with
          | none => simp at hs
          | some t =>
            have e2 := lines_eq (show s.lines = t.lines by simpa using hs)
            simp [Contains, Before, e1, e2]
      unfold considered
      by_cases h3 : ∀ u ∈ s, Contains u x ∨ Before u x
      · rw [if_pos h3, if_pos (hc.1 h3)]
        simp only [List.map_cons, h1]
        rw [ih (s := some x) (t := some y) h2 (by simp [h1])]
      · rw [if_neg h3, if_neg (fun h => h3 (hc.2 h))]
        exact ih h2 hs

theorem sortFolds_byLines (l : List Fold) : ByLines l (sortFolds l) :=
  ⟨sortFolds_perm l, (sortFolds_sorted l).imp (fun h => Fold.le_iff.1 h)⟩

/-- The last range overlaps the one that was taken into account before. -/
theorem last_overlaps {l a b : List Fold} (ha : ByLines l a) (hb : ByLines l b)
    (h : ∃ init r t, a = init ++ [r] ∧ (considered none init).getLast? = some t ∧ ¬ Contains t r ∧ ¬ Before t r) :
    ∃ init r t, b = init ++ [r] ∧ (considered none init).getLast? = some t ∧ ¬ Contains t r ∧ ¬ Before t r := by
  obtain ⟨init, r, t, rfl, h1, h2, h3⟩ := h
  have hl := byLines_unique ha hb
  rcases List.eq_nil_or_concat b with rfl | ⟨init', r', rfl⟩
  · simp at hl
  · rw [List.concat_eq_append] at *
    simp only [List.map_append, List.map_cons, List.map_nil] at hl
    obtain ⟨k1, k2⟩ := List.append_inj' hl rfl
    have k3 := considered_lines (s := none) (t := none) k1 rfl
    have e1 := lines_eq (show r.lines = r'.lines by simpa using k2)
    have k4 : (considered none init').getLast?.map Fold.lines = some t.lines := by
      rw [← List.getLast?_map, ← k3, List.getLast?_map, h1]; rfl
    obtain ⟨t', k5, k6⟩ := Option.map_eq_some_iff.1 k4
    have e2 := lines_eq k6
    refine ⟨init', r', t', rfl, k5, ?_, ?_⟩
    · unfold Contains at *; rw [← e1.1, ← e1.2, e2.1, e2.2]; exact h2
    · unfold Before at *; rw [← e1.1, e2.2]; exact h3

theorem considered_length {l a b : List Fold} (ha : ByLines l a) (hb : ByLines l b) :
    (considered none a).length = (considered none b).length := by
  have := congrArg List.length (considered_lines (s := none) (t := none) (byLines_unique ha hb) rfl)
  simpa using this

theorem considered_nested {l : List Fold} (h : l.Pairwise (fun a b => Contains a b ∨ Before a b)) :
    considered none l = l := by
  have key : ∀ (l : List Fold) (t : Fold), (t :: l).Pairwise (fun a b => Contains a b ∨ Before a b) →
      considered (some t) l = l := by
    intro l
    induction l with
    | nil => intro _ _; rfl
    | cons x l ih =>
      intro t ht
      rw [List.pairwise_cons] at ht
      unfold considered
      rw [if_pos (by simpa using ht.1 x (by simp)), ih x ht.2]
  cases l with
  | nil => rfl
  | cons x l =>
    unfold considered
    rw [if_pos (by simp), key l x h]

/-! ### The loop over the tokens -/

theorem foldStep_noerr' {u : Uni} {d : TextDoc} {void : List Str} {f : FoldState} {t : Tok}
    (h : t.type = .StartTag ∨ t.type = .EndTag ∨ t.type = .Comment → ∃ x, sliceStr d.text t.offset t.stop = .ok x) :
    ∃ f', foldStep u d void f t = .ok f' := by
  unfold foldStep
  split
  · rename_i ht
    obtain ⟨x, hx⟩ := h (.inl ht)
    rw [hx]; exact ⟨_, rfl⟩
  · rename_i ht
    obtain ⟨x, hx⟩ := h (.inr (.inl ht))
    rw [hx]; exact ⟨_, rfl⟩
  · exact ⟨_, rfl⟩
  · exact ⟨_, rfl⟩
  · exact ⟨_, rfl⟩
  · rename_i ht
    obtain ⟨x, hx⟩ := h (.inr (.inr ht))
    rw [hx]; exact ⟨_, rfl⟩
  · exact ⟨_, rfl⟩

theorem foldlM_noerr' {u : Uni} {d : TextDoc} {void : List Str} {f : FoldState} {ts : List Tok}
    (h : ∀ t ∈ ts, t.type = .StartTag ∨ t.type = .EndTag ∨ t.type = .Comment →
      ∃ x, sliceStr d.text t.offset t.stop = .ok x) :
    ∃ f', ts.foldlM (foldStep u d void) f = .ok f' := by
  induction ts generalizing f with
  | nil => exact ⟨f, rfl⟩
  | cons t ts ih =>
    obtain ⟨f1, h1⟩ := foldStep_noerr' (u := u) (void := void) (f := f) (h t (by simp))
    rw [List.foldlM_cons, h1]
    exact ih (fun t ht => h t (List.mem_cons_of_mem _ ht))

/-- Names and comments begin in states in which the scanner does not stand inside a character. -/
theorem Step.name_start {c : Cfg} {s s' : Sc} (h : Step c s s') (hi : WInv c s)
    (hk : s'.tokenType = .StartTag ∨ s'.tokenType = .EndTag ∨ s'.tokenType = .Comment) :
    isBoundary c.src s.pos = true := by
  cases h with
  | endTag _ h hs hx => cases hx <;> simp [fin, adv] at hk
  | content _ h hs hx => cases hx <;> simp [fin, adv] at hk
  | scriptContent _ h hs hl hx => cases hx <;> simp [fin, adv] at hk
  | styleContent _ h hs hb h0 hx => cases hx <;> simp [fin, adv] at hk
  | tag _ h hs hx => cases hx <;> simp [fin, adv] at hk
  | afterNameTag _ h hs hw h0 hx => cases hx <;> simp [fin, adv] at hk
  | valueTag _ h hs hw hb h0 h1 hx => cases hx <;> simp [fin, adv] at hk
  | startTagName h hs hb h0 => exact hb
  | endTagName h hs hb h0 => exact hb
  | comment h hs hx h0 => exact hi.resolve_right (by simp [hs])
  | _ => simp [fin, adv] at hk

theorem Run.slices {c : Cfg} {s s2 : Sc} {ts : List Tok} (h : Run c s ts s2) (hc : AsciiNext c.src) (hi : WInv c s)
    (hle : s.pos ≤ c.src.length) : ∀ t ∈ ts, t.type = .StartTag ∨ t.type = .EndTag ∨ t.type = .Comment →
      ∃ x, sliceStr c.src t.offset t.stop = .ok x := by
  induction h with
  | nil s => intro t ht; cases ht
  | @cons s s1 s2 ts h hne hr ih =>
    have hst := scan_step h
    intro t ht hk
    rcases List.mem_cons.1 ht with rfl | ht
    · have hk : s1.tokenType = .StartTag ∨ s1.tokenType = .EndTag ∨ s1.tokenType = .Comment := hk
      have h1 := hst.name_start hi hk
      have h2 := hst.end_boundary hc hle hi (by rcases hk with h | h | h <;> rw [h] <;> decide)
      refine ⟨_, sliceStr_eq (show s1.tokenOffset ≤ s1.pos from ?_) (?_ : isBoundary c.src s1.tokenOffset = true) h2⟩
      · rw [hst.offset_eq]; exact (hst.pos_le hle).1
      · rw [hst.offset_eq]; exact h1
    · exact ih (hst.winv hc hi) (hst.pos_le hle).2 t ht hk

theorem foldLoop_panics_iff {u : Uni} {cs : Bool} {d : TextDoc} {void : List Str} {cps : List Nat} {f : FoldState}
    (hu : Utf8 cps d.text) :
    (∃ e, foldLoop ⟨u, d.text, false, cs⟩ d void (2 * d.text.length + 2) f (.new 0 .WithinContent) = .error e) ↔
      ∃ e, tokens ⟨u, d.text, false, cs⟩ (.new 0 .WithinContent) = .error e := by
  cases h : tokens ⟨u, d.text, false, cs⟩ (.new 0 .WithinContent) with
  | error e =>
    refine ⟨fun _ => ⟨e, rfl⟩, fun _ => ?_⟩
    cases h1 : foldLoop ⟨u, d.text, false, cs⟩ d void (2 * d.text.length + 2) f (.new 0 .WithinContent) with
    | error x => exact ⟨x, rfl⟩
    | ok r =>
      obtain ⟨ts, h2, _⟩ := foldLoop_ok.1 h1
      have : tokens ⟨u, d.text, false, cs⟩ (.new 0 .WithinContent) = .ok ts := h2
      rw [h] at this; cases this
  | ok ts =>
    obtain ⟨s2, _, hr, _⟩ := tokensF_run h
    obtain ⟨r, h1⟩ := foldlM_noerr' (u := u) (d := d) (void := void) (f := f)
      (hr.slices (asciiNext_of_utf8 hu) (.inr (.inl rfl)) (Nat.zero_le _))
    have h2 : foldLoop ⟨u, d.text, false, cs⟩ d void (2 * d.text.length + 2) f (.new 0 .WithinContent) = .ok r :=
      foldLoop_ok.2 ⟨ts, h, h1⟩
    rw [h2]
    exact ⟨fun ⟨e, h⟩ => (by cases h), fun ⟨e, h⟩ => (by cases h)⟩

end Html
