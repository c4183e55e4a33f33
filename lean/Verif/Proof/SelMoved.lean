import Verif.Proof.Moved
import Verif.Spec.SelectionRange
import Verif.Spec.SelMoved

/-! # Selection ranges behind a complete text -/

namespace Html
open Spec

/-- The chain of a list of ranges of offsets: a range that is the same as the next one is left out. -/
def chainR (d : TextDoc) : List (Nat × Nat) → List Range
  | [] => []
  | x :: l => if l.head? = some x then chainR d l else ⟨d.posAt x.1, d.posAt x.2⟩ :: chainR d l

theorem chain_foldr (d : TextDoc) (l : List (Nat × Nat)) :
    (l.foldr (selStep d) (none, none)).1 = l.head? ∧
    ((l.foldr (selStep d) (none, none)).2.map chainRanges).getD [] = chainR d l ∧
    ((l.foldr (selStep d) (none, none)).2 = none ↔ l = []) := by
  induction l with
  | nil => exact ⟨rfl, rfl, by simp⟩
  | cons x l ih =>
    obtain ⟨h1, h2, h3⟩ := ih
    rw [List.foldr_cons]
    generalize l.foldr (selStep d) (none, none) = s at *
    obtain ⟨a, b⟩ := s
    simp only at h1 h2 h3
    subst h1
    unfold selStep chainR
    simp only
    split
    · rename_i hx
      refine ⟨rfl, h2, ?_⟩
      rw [h3]
      constructor
      · intro h; rw [h] at hx; cases hx
      · intro h; cases h
    · refine ⟨rfl, ?_, by simp⟩
      rw [← h2]
      cases b <;> rfl

theorem selection_ranges_chain {u : Uni} {cs : Bool} {d : TextDoc} {roots : List Node} {p : Pos} {l : List (Nat × Nat)}
    (h : applicableRanges u cs d roots p = .ok l) (hl : l ≠ []) :
    ∃ s, selectionRange u cs d roots p = .ok s ∧ chainRanges s = chainR d l := by
  obtain ⟨_, h2, h3⟩ := chain_foldr d l
  unfold selectionRange
  rw [h]
  simp only [bind, Except.bind]
  cases hs : (l.foldr (selStep d) (none, none)).2 with
  | none => exact absurd (h3.1 hs) hl
  | some s =>
    rw [hs] at h2
    exact ⟨s, rfl, h2⟩

theorem chainR_last {d : TextDoc} {r : Nat × Nat} : ∀ {l : List (Nat × Nat)}, l.getLast? ≠ some r →
    chainR d (l ++ [r]) = chainR d l ++ [⟨d.posAt r.1, d.posAt r.2⟩]
  | [], _ => by simp [chainR]
  | [x], h => by
    have hx : x ≠ r := fun h0 => h (by rw [h0]; rfl)
    simp [chainR, Ne.symm hx]
  | x :: y :: l, h => by
    have ih := chainR_last (d := d) (r := r) (l := y :: l) (by simpa using h)
    rw [List.cons_append, chainR, chainR, ih]
    by_cases hx : y = x <;> simp [hx]

theorem chainR_same {d : TextDoc} {r : Nat × Nat} : ∀ {l : List (Nat × Nat)}, l.getLast? = some r →
    chainR d (l ++ [r]) = chainR d l
  | [], h => by cases h
  | [x], h => by
    cases h
    simp [chainR]
  | x :: y :: l, h => by
    have ih := chainR_same (d := d) (r := r) (l := y :: l) (by simpa using h)
    rw [List.cons_append, chainR, chainR, ih]
    by_cases hx : y = x <;> simp [hx]

/-- A range of offsets, moved. -/
def mv (k : Nat) (x : Nat × Nat) : Nat × Nat := (x.1 + k, x.2 + k)

theorem mv_inj {k : Nat} {x y : Nat × Nat} : mv k x = mv k y ↔ x = y := by
  obtain ⟨a, b⟩ := x
  obtain ⟨c, d⟩ := y
  simp only [mv, Prod.mk.injEq]
  omega

section
variable {void : List Str} {u : Uni} {cs : Bool} {pre : Str} {front roots roots' : List Node} {e p : Pos} {d d' : TextDoc}

theorem chainR_mv (hb : PutBehind pre e d d') : ∀ l : List (Nat × Nat),
    chainR d' (l.map (mv pre.length)) = (chainR d l).map (Range.after e)
  | [] => rfl
  | x :: l => by
    simp only [List.map_cons, chainR, List.head?_map]
    have : (l.head?.map (mv pre.length) = some (mv pre.length x)) ↔ l.head? = some x := by
      cases l.head? with
      | none => simp
      | some y => simp only [Option.map_some, Option.some.injEq, mv_inj]
    by_cases hx : l.head? = some x
    · rw [if_pos hx, if_pos (this.2 hx), chainR_mv hb l]
    · rw [if_neg hx, if_neg (fun h => hx (this.1 h)), chainR_mv hb l, List.map_cons]
      congr 1
      exact hb.range _ _

theorem nodeRanges_mv {k : Nat} {n : Node} : nodeRanges (n.shift k) = (nodeRanges n).map (mv k) := by
  unfold nodeRanges
  rw [shift_startTagEnd, shift_endTagStart, shift_start, shift_stop]
  cases n.startTagEnd <;> cases n.endTagStart <;> simp only [Option.map_none, Option.map_some] <;> try rfl
  rename_i a b
  by_cases h : a < b
  · rw [if_pos h, if_pos (by omega)]; rfl
  · rw [if_neg h, if_neg (by omega)]; rfl

theorem parents_mv {k : Nat} {ps : List Node} :
    ((Node.shifts k ps).reverse.map nodeRanges).flatten = ((ps.reverse.map nodeRanges).flatten).map (mv k) := by
  rw [shifts_map, ← List.map_reverse, List.map_map, List.map_flatten, List.map_map]
  congr 1
  apply List.map_congr_left
  intro n _
  exact nodeRanges_mv

theorem attributeRanges_mv (hb : PutBehind pre e d d') {n : Node} {cur : Nat} :
    attributeRanges u cs d' (n.shift pre.length) (cur + pre.length) =
      (attributeRanges u cs d n cur).map (List.map (mv pre.length)) := by
  unfold attributeRanges
  rw [shift_start, shift_stop, hb.range, content_behind hb]
  cases d.content ⟨d.posAt n.start, d.posAt n.stop⟩ with
  | error x => rfl
  | ok t =>
    have hs : subU (cur + pre.length) (n.start + pre.length) = subU cur n.start := by
      unfold subU
      by_cases h : n.start ≤ cur
      · rw [if_pos h, if_pos (by omega)]; congr 1; omega
      · rw [if_neg h, if_neg (by omega)]
    rw [hs]
    cases subU cur n.start with
    | error x => rfl
    | ok rel =>
      simp only [bind, Except.bind]
      cases attrSelLoop ⟨u, t, false, cs⟩ rel (2 * t.length + 2) ⟨[], false, 0⟩ (.new 0 .WithinContent) with
      | error x => rfl
      | ok a =>
        simp only [Except.map, List.map_map]
        congr 1
        apply List.map_congr_left
        intro x _
        simp only [Function.comp, mv, Prod.mk.injEq]
        omega

theorem subU_mv {a b c k : Nat} (h : subU a b = .ok c) : subU (a + k) b = .ok (c + k) := by
  unfold subU at h ⊢
  split at h
  · cases h
    rw [if_pos (by omega)]
    congr 1
    omega
  · cases h

theorem voidRanges_mv (hb : PutBehind pre e d d') {n : Node} {ste cur : Nat} {r l : List (Nat × Nat)}
    (h : voidRanges u cs d n ste cur r = .ok l) :
    (∃ i, l = i ++ r ∧ ∀ r', voidRanges u cs d' (n.shift pre.length) (ste + pre.length) (cur + pre.length) r' =
      .ok (i.map (mv pre.length) ++ r')) ∨
    (ste ≠ n.stop ∧ l ≠ [] ∧ ∀ r', voidRanges u cs d' (n.shift pre.length) (ste + pre.length) (cur + pre.length) r' = .ok (l.map (mv pre.length))) := by
  unfold voidRanges at h ⊢
  rw [shift_start, shift_stop]
  by_cases hq : ste ≠ n.stop
  · rw [if_pos hq] at h
    cases h
    exact .inr ⟨hq, by simp, fun r' => by rw [if_pos (by omega)]; rfl⟩
  · rw [if_neg hq] at h
    obtain ⟨a, ha, h⟩ := bind_ok h
    obtain ⟨t, ht, h⟩ := bind_ok h
    obtain ⟨at_, hat, h⟩ := bind_ok h
    have h2 : 2 ≤ ste := by
      unfold subU at ha
      split at ha
      · assumption
      · cases ha
    cases h
    refine .inl ⟨at_ ++ [(n.start + 1, if t = b!"/>" then ste - 2 else ste - 1)], by simp, fun r' => ?_⟩
    rw [if_neg (by omega), subU_mv ha]
    simp only [bind, Except.bind]
    rw [hb.range, content_behind hb, ht, attributeRanges_mv hb, hat]
    simp only [Except.map, List.map_append, List.map_cons, List.map_nil, List.append_assoc, List.cons_append, List.nil_append, mv]
    congr 3
    simp only [Prod.mk.injEq]
    split <;> omega

theorem pairRanges_mv (hb : PutBehind pre e d d') {n : Node} {ste ets cur : Nat} {r l : List (Nat × Nat)}
    (h : pairRanges u cs d n ste ets cur r = .ok l) :
    ∃ i, l = i ++ r ∧ ∀ r', pairRanges u cs d' (n.shift pre.length) (ste + pre.length) (ets + pre.length) (cur + pre.length) r' =
      .ok (i.map (mv pre.length) ++ r') := by
  unfold pairRanges at h ⊢
  dsimp only at h ⊢
  rw [shift_start, shift_stop]
  by_cases h1 : n.start < cur ∧ cur < ste
  · rw [if_pos h1] at h
    obtain ⟨a, ha, h⟩ := bind_ok h
    obtain ⟨at_, hat, h⟩ := bind_ok h
    cases h
    refine ⟨at_ ++ [(n.start + 1, a), (n.start, n.stop)], by simp, fun r' => ?_⟩
    rw [if_pos (by omega), subU_mv ha]
    simp only [bind, Except.bind]
    rw [attributeRanges_mv hb, hat]
    simp only [Except.map, List.map_append, List.map_cons, List.map_nil, List.append_assoc, List.cons_append, List.nil_append, mv]
    congr 3
    simp only [Prod.mk.injEq, and_true]
    omega
  · rw [if_neg h1] at h
    by_cases h2 : ste ≤ cur ∧ cur ≤ ets
    · rw [if_pos h2] at h
      cases h
      exact ⟨[(ste, ets), (n.start, n.stop)], rfl, fun r' => by rw [if_neg (by omega), if_pos (by omega)]; rfl⟩
    · rw [if_neg h2] at h
      by_cases h3 : ets + 2 ≤ cur
      · rw [if_pos h3] at h
        obtain ⟨a, ha, h⟩ := bind_ok h
        cases h
        refine ⟨[(ets + 2, a), (n.start, n.stop)], rfl, fun r' => ?_⟩
        rw [if_neg (by omega), if_neg (by omega), if_pos (by omega), subU_mv ha]
        simp only [bind, Except.bind, List.map_cons, List.map_nil, List.cons_append, List.nil_append, mv]
        rw [show ets + pre.length + 2 = ets + 2 + pre.length by omega]
      · rw [if_neg h3] at h
        cases h
        exact ⟨[(n.start, n.stop)], rfl, fun r' => by rw [if_neg (by omega), if_neg (by omega), if_neg (by omega)]; rfl⟩

theorem applicable_moved {l : List (Nat × Nat)} (hc : ClosedText u cs void pre front) (hb : PutBehind pre e d d')
    (h : parse u cs void d.text = .ok roots) (h' : parse u cs void d'.text = .ok roots')
    (ha : applicableRanges u cs d roots p = .ok l) :
    (∃ i, l = i ++ rootsRange roots ∧ applicableRanges u cs d' roots' (Pos.after e p) = .ok (i.map (mv pre.length) ++ rootsRange roots')) ∨
    (InUnclosed roots (d.offsetAt p) ∧ l ≠ [] ∧ applicableRanges u cs d' roots' (Pos.after e p) = .ok (l.map (mv pre.length))) := by
  unfold applicableRanges at ha ⊢
  dsimp only at ha ⊢
  rw [hb.off, found_behind hc hb h h']
  cases hn : findNodeAt roots (d.offsetAt p) with
  | none =>
    rw [hn] at ha
    cases ha
    exact .inl ⟨[], rfl, rfl⟩
  | some r =>
    obtain ⟨n, ps⟩ := r
    rw [hn] at ha
    simp only [Option.map_some, shift_startTagEnd, shift_endTagStart, allParentRanges, parents_mv] at ha ⊢
    have base : ∀ {i : List (Nat × Nat)}, l = i ++ ((ps.reverse.map nodeRanges).flatten ++ rootsRange roots) →
        l = (i ++ (ps.reverse.map nodeRanges).flatten) ++ rootsRange roots := fun h => by rw [h, List.append_assoc]
    cases hs : n.startTagEnd with
    | none =>
      rw [hs] at ha
      cases ha
      exact .inl ⟨(ps.reverse.map nodeRanges).flatten, rfl, rfl⟩
    | some ste =>
      cases hz : n.endTagStart with
      | none =>
        rw [hs, hz] at ha
        rcases voidRanges_mv hb ha with ⟨i, h1, h2⟩ | ⟨hq, h1, h2⟩
        · refine .inl ⟨_, base h1, ?_⟩
          simp only [Option.map_some, Option.map_none]
          rw [h2]
          simp only [List.map_append, List.append_assoc]
        · obtain ⟨hm, hcv⟩ := findNodeAt_mem h hn
          refine .inr ⟨⟨n, ste, hm, hcv, fun c hc' => findNodeAt_leaf (parse_nest h) hn c (.root hc'), hs, hq, hz⟩, h1, ?_⟩
          simp only [Option.map_some, Option.map_none]
          rw [h2]
      | some ets =>
        rw [hs, hz] at ha
        obtain ⟨i, h1, h2⟩ := pairRanges_mv hb ha
        refine .inl ⟨_, base h1, ?_⟩
        simp only [Option.map_some]
        rw [h2]
        simp only [List.map_append, List.append_assoc]

theorem selection_moved {a b : Node} {s : SelRange} (hc : ClosedText u cs void pre front) (hb : PutBehind pre e d d')
    (h : parse u cs void d.text = .ok roots) (h' : parse u cs void d'.text = .ok roots')
    (hfa : roots.head? = some a) (hla : roots.getLast? = some b)
    (hs : selectionRange u cs d roots p = .ok s) :
    ∃ s', selectionRange u cs d' roots' (Pos.after e p) = .ok s' ∧
      ((front = [] ∨ InUnclosed roots (d.offsetAt p)) ∧ chainRanges s' = (chainRanges s).map (Range.after e) ∨
      ∃ f l, front.head? = some f ∧ roots'.head? = some f ∧
        (chainRanges s = l ∨ chainRanges s = l ++ [⟨d.posAt a.start, d.posAt b.stop⟩]) ∧
        chainRanges s' = l.map (Range.after e) ++ [⟨d'.posAt f.start, d'.posAt (b.stop + pre.length)⟩]) := by
  have hs0 := hs
  unfold selectionRange at hs
  obtain ⟨l, hl, _⟩ := bind_ok hs
  have hrr : rootsRange roots = [(a.start, b.stop)] := by unfold rootsRange; rw [hfa, hla]
  have hr' := roots_behind hc hb h h'
  have hlast' : roots'.getLast? = some (b.shift pre.length) := by
    rw [hr', List.getLast?_append, shifts_map, List.getLast?_map, hla]
    rfl
  rcases applicable_moved (p := p) hc hb h h' hl with ⟨i, h1, h2⟩ | ⟨hu, h1, h2⟩
  · rw [hrr] at h1
    obtain ⟨s1, hs1, hch⟩ := selection_ranges_chain hl (by rw [h1]; simp)
    rw [hs0] at hs1
    cases hs1
    obtain ⟨f, hf⟩ : ∃ f, roots'.head? = some f := by
      cases hx : roots' with
      | nil => rw [hx] at hlast'; cases hlast'
      | cons f _ => exact ⟨f, rfl⟩
    have hrr' : rootsRange roots' = [(f.start, b.stop + pre.length)] := by
      unfold rootsRange; rw [hf, hlast']; simp
    rw [hrr'] at h2
    obtain ⟨s', hs', hch'⟩ := selection_ranges_chain h2 (by simp)
    refine ⟨s', hs', ?_⟩
    rw [hch, hch', h1]
    cases front with
    | nil =>
      refine .inl ⟨.inl rfl, ?_⟩
      have hfe : f = a.shift pre.length := by
        rw [hr', List.nil_append, shifts_map, List.head?_map, hfa] at hf
        exact (Option.some.inj hf).symm
      rw [hfe, shift_start, show i.map (mv pre.length) ++ [(a.start + pre.length, b.stop + pre.length)] =
        (i ++ [(a.start, b.stop)]).map (mv pre.length) by simp [mv], chainR_mv hb]
    | cons g rest =>
      have hfg : f = g := by
        rw [hr'] at hf
        exact (Option.some.inj hf).symm
      subst hfg
      have hlt : f.start < pre.length := by
        have := Props.C12_well_nested _ _ _ _ _ f hc.tree (.root (by simp))
        omega
      refine .inr ⟨f, chainR d i, rfl, hf, ?_, ?_⟩
      · by_cases hq : i.getLast? = some (a.start, b.stop)
        · exact .inl (chainR_same hq)
        · exact .inr (chainR_last hq)
      · rw [chainR_last, chainR_mv hb]
        intro hq
        rw [List.getLast?_map] at hq
        cases hi : i.getLast? with
        | none => rw [hi] at hq; cases hq
        | some x =>
          rw [hi] at hq
          simp only [Option.map_some, Option.some.injEq, mv, Prod.mk.injEq] at hq
          omega
  · obtain ⟨s1, hs1, hch⟩ := selection_ranges_chain hl h1
    rw [hs0] at hs1
    cases hs1
    obtain ⟨s', hs', hch'⟩ := selection_ranges_chain h2 (by simp [h1])
    exact ⟨s', hs', .inl ⟨.inr hu, by rw [hch, hch', chainR_mv hb]⟩⟩

theorem one_selection {s : SelRange} (h : selectionRange u cs d roots p = .ok s) :
    getSelectionRanges u cs d roots [p] = .ok [s] := by
  unfold getSelectionRanges
  rw [List.mapM_cons, h]
  rfl

theorem selection_unclosed {s : SelRange} (hc : ClosedText u cs void pre front) (hb : PutBehind pre e d d')
    (h : parse u cs void d.text = .ok roots) (h' : parse u cs void d'.text = .ok roots')
    (hu : InUnclosed roots (d.offsetAt p)) (hs : selectionRange u cs d roots p = .ok s) :
    ∃ s', selectionRange u cs d' roots' (Pos.after e p) = .ok s' ∧ chainRanges s' = (chainRanges s).map (Range.after e) := by
  obtain ⟨n, ste, hm, hcv, hk, hst, hq, hz⟩ := hu
  obtain ⟨ps, hn⟩ := findNodeAt_of_covers h hm hcv hk
  have ha : applicableRanges u cs d roots p = .ok [(n.start, n.stop)] := by
    unfold applicableRanges
    dsimp only
    rw [hn]
    simp only [hst, hz]
    unfold voidRanges
    rw [if_pos hq]
  have ha' : applicableRanges u cs d' roots' (Pos.after e p) = .ok ([(n.start, n.stop)].map (mv pre.length)) := by
    unfold applicableRanges
    dsimp only
    rw [hb.off, found_behind hc hb h h', hn]
    simp only [Option.map_some, shift_startTagEnd, shift_endTagStart, hst, hz, Option.map_none]
    unfold voidRanges
    rw [shift_stop, shift_start, if_pos (by omega)]
    rfl
  obtain ⟨s1, hs1, hch⟩ := selection_ranges_chain ha (by simp)
  rw [hs] at hs1
  cases hs1
  obtain ⟨s', hs', hch'⟩ := selection_ranges_chain ha' (by simp)
  exact ⟨s', hs', by rw [hch, hch', chainR_mv hb]⟩

end

end Html
