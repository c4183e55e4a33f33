import Verif.Proof.SelectionExact

/-! # Which ranges a selection range chain holds -/

namespace Html
open Spec

variable {u : Uni} {cs : Bool} {void : List Str} {roots : List Node}

theorem nodeRanges_mem {n : Node} {r : Nat × Nat} (h : r ∈ nodeRanges n) :
    r = (n.start, n.stop) ∨ (n.startTagEnd = some r.1 ∧ n.endTagStart = some r.2) := by
  unfold nodeRanges at h
  split at h
  · rename_i a b ha hb
    split at h
    · simp only [List.mem_cons, List.not_mem_nil, or_false] at h
      rcases h with rfl | rfl
      · exact .inr ⟨ha, hb⟩
      · exact .inl rfl
    · exact .inl (by simpa using h)
  · exact .inl (by simpa using h)

theorem rootsRange_mem {r : Nat × Nat} : r ∈ rootsRange roots ↔
    ∃ a b, roots.head? = some a ∧ roots.getLast? = some b ∧ r = (a.start, b.stop) := by
  unfold rootsRange
  split
  · rename_i a b ha hb
    simp [ha, hb]
  · rename_i hx
    simp only [List.not_mem_nil, false_iff]
    rintro ⟨a, b, ha, hb, _⟩
    exact hx a b ha hb

theorem content_mem_parents {ps : List Node} {m : Node} {a b : Nat} (h : m ∈ ps) (ha : m.startTagEnd = some a)
    (hb : m.endTagStart = some b) (hlt : a < b) : (a, b) ∈ allParentRanges ps roots := by
  refine List.mem_append_left _ (List.mem_flatten.2 ⟨_, List.mem_map_of_mem (List.mem_reverse.2 h), ?_⟩)
  unfold nodeRanges
  rw [ha, hb]
  simp [hlt]

theorem parents_mem {ps : List Node} {n : Node} {o : Nat} {r : Nat × Nat} (h : parse u cs void src = .ok roots)
    (hs : AtSpec roots o n ps) (hr : r ∈ allParentRanges ps roots) : RangeAround roots o r := by
  rcases List.mem_append.1 hr with hr | hr
  · obtain ⟨l, h1, h2⟩ := List.mem_flatten.1 hr
    obtain ⟨m, h3, rfl⟩ := List.mem_map.1 h1
    have h3 := List.mem_reverse.1 h3
    have hc := chain_covers (parse_nest h).deep hs.chain hs.covers m h3
    exact .inr (.inl ⟨m, (chain_inForest hs.chain).2 m h3, hc, nodeRanges_mem h2⟩)
  · exact .inl (rootsRange_mem.1 hr)

/-- The ranges of the elements around the cursor stay, unless the innermost is left open. -/
theorem applicableRanges_parents {d : TextDoc} {p : Pos} {l : List (Nat × Nat)} {n : Node} {ps : List Node}
    (h : parse u cs void d.text = .ok roots)
    (hleft : ∀ n, InForest roots n → Covers n (d.offsetAt p) → LeftOpen n →
      ∃ k ∈ n.children, Covers k (d.offsetAt p))
    (ha : applicableRanges u cs d roots p = .ok l) (hf : findNodeAt roots (d.offsetAt p) = some (n, ps)) :
    ∃ inner, l = inner ++ allParentRanges ps roots := by
  unfold applicableRanges at ha
  have hs := findNodeAt_spec (o := d.offsetAt p) (parse_nest h)
  simp only [hf] at ha hs
  have hleaf := findNodeAt_leaf (parse_nest h) hf
  have hnf := (chain_inForest hs.chain).1
  have hdn := parse_done h hnf
  split at ha
  · rename_i e he hets
    have hee : e = n.stop := by
      cases hcl : n.closed with
      | true =>
        have := (hdn.cls hcl hets).1
        rw [he] at this
        simpa using this
      | false =>
        obtain ⟨k, k1, k2⟩ := hleft n hnf hs.covers ⟨hcl, by simp [he]⟩
        exact absurd k2 (hleaf k (.root k1))
    unfold voidRanges at ha
    rw [if_neg (by simp [hee])] at ha
    obtain ⟨_, _, ha⟩ := bind_ok ha
    obtain ⟨_, _, ha⟩ := bind_ok ha
    obtain ⟨attrs, _, ha⟩ := bind_ok ha
    cases ha
    exact ⟨attrs ++ [_], by simp; rfl⟩
  · unfold pairRanges at ha
    simp only at ha
    split at ha
    · obtain ⟨_, _, ha⟩ := bind_ok ha
      obtain ⟨attrs, _, ha⟩ := bind_ok ha
      cases ha
      exact ⟨attrs ++ [_, _], by simp; exact ⟨rfl, rfl⟩⟩
    · split at ha
      · cases ha
        exact ⟨[_, _], rfl⟩
      · split at ha
        · obtain ⟨_, _, ha⟩ := bind_ok ha
          cases ha
          exact ⟨[_, _], rfl⟩
        · cases ha
          exact ⟨[_], rfl⟩
  · cases ha
    exact ⟨[], rfl⟩

theorem applicableRanges_all {d : TextDoc} {cps : List Nat} {p : Pos} {l : List (Nat × Nat)} {r : Nat × Nat}
    (hd : Lawful d) (hu : Utf8 cps d.text) (h : parse u cs void d.text = .ok roots)
    (ha : applicableRanges u cs d roots p = .ok l) (hr : r ∈ l) : RangeAround roots (d.offsetAt p) r := by
  unfold applicableRanges at ha
  simp only at ha
  have hs := findNodeAt_spec (o := d.offsetAt p) (parse_nest h)
  split at ha
  · cases ha
    simp only [allParentRanges, List.reverse_nil, List.map_nil, List.flatten_nil, List.nil_append] at hr
    exact .inl (rootsRange_mem.1 hr)
  · rename_i n ps hf
    rw [hf] at hs
    have hleaf := findNodeAt_leaf (parse_nest h) hf
    have hnf := (chain_inForest hs.chain).1
    have hdn := parse_done h hnf
    have hcov := hs.covers
    have inTags : ∀ {r : Nat × Nat}, InTags n r → RangeAround roots (d.offsetAt p) r := fun hx =>
      .inr (.inr ⟨n, hnf, hcov, fun k hk => hleaf k (.root hk), hx⟩)
    have own : ∀ {r : Nat × Nat}, r = (n.start, n.stop) ∨ (n.startTagEnd = some r.1 ∧ n.endTagStart = some r.2) →
        RangeAround roots (d.offsetAt p) r := fun hx => .inr (.inl ⟨n, hnf, hcov, hx⟩)
    split at ha
    · rename_i e he hets
      unfold voidRanges at ha
      split at ha
      · cases ha
        exact own (.inl (by simpa using hr))
      · rename_i hst
        have hst : e = n.stop := by simpa using hst
        obtain ⟨_, h0, ha⟩ := bind_ok ha
        obtain ⟨_, _, ha⟩ := bind_ok ha
        obtain ⟨attrs, hat, ha⟩ := bind_ok ha
        cases ha
        have har := attributeRanges_good hd hu h hnf he (by unfold Covers at hcov; omega) hat
        have hste := (hdn.ste e he).1
        rcases List.mem_append.1 hr with hr | hr
        · have := har.mem r hr
          exact inTags (.inl ⟨e, he, by omega, by omega⟩)
        · rcases List.mem_cons.1 hr with rfl | hr
          · refine inTags (.inl ⟨e, he, by simp, ?_⟩)
            dsimp only
            split <;> omega
          · exact parents_mem h hs hr
    · rename_i e ets he hets
      unfold pairRanges at ha
      simp only at ha
      have tail : r ∈ (n.start, n.stop) :: allParentRanges ps roots → RangeAround roots (d.offsetAt p) r := fun hr => by
        rcases List.mem_cons.1 hr with rfl | hr
        · exact own (.inl rfl)
        · exact parents_mem h hs hr
      split at ha
      · rename_i hlt
        obtain ⟨x, hx, ha⟩ := bind_ok ha
        obtain ⟨attrs, hat, ha⟩ := bind_ok ha
        obtain ⟨h1, rfl⟩ := subU_ok hx
        cases ha
        have har := attributeRanges_good hd hu h hnf he hlt.2 hat
        rcases List.mem_append.1 hr with hr | hr
        · have := har.mem r hr
          exact inTags (.inl ⟨e, he, by omega, by omega⟩)
        · rcases List.mem_cons.1 hr with rfl | hr
          · exact inTags (.inl ⟨e, he, by simp, by dsimp only; omega⟩)
          · exact tail hr
      · split at ha
        · cases ha
          rcases List.mem_cons.1 hr with rfl | hr
          · exact own (.inr ⟨he, hets⟩)
          · exact tail hr
        · split at ha
          · obtain ⟨x, hx, ha⟩ := bind_ok ha
            obtain ⟨h1, rfl⟩ := subU_ok hx
            cases ha
            rcases List.mem_cons.1 hr with rfl | hr
            · exact inTags (.inr ⟨ets, hets, rfl⟩)
            · exact tail hr
          · cases ha
            exact tail hr
    · cases ha
      exact parents_mem h hs hr

theorem squeeze_getLast (l : List (Nat × Nat)) : (squeeze l).getLast? = l.getLast? := by
  induction l with
  | nil => rfl
  | cons a l ih =>
    unfold squeeze
    cases l with
    | nil => rfl
    | cons b l =>
      split
      · rw [ih, List.getLast?_cons_cons]
      · rw [List.getLast?_cons, ih, List.getLast?_cons_cons]
        simp [List.getLast?_cons]

theorem siblings_room {lo hi : Nat} {l : List Node} (h : Siblings lo l hi) : lo ≤ hi := by
  induction l generalizing lo with
  | nil => exact h
  | cons m l ih =>
    have := ih h.2.2
    have := h.1
    have := h.2.1
    omega

theorem siblings_some {lo hi : Nat} {l : List Node} (h : Siblings lo l hi) (hl : l ≠ []) : lo < hi := by
  cases l with
  | nil => exact absurd rfl hl
  | cons m l =>
    have := siblings_room h.2.2
    have := h.1
    have := h.2.1
    omega

theorem rootsRange_nil (h : rootsRange roots = []) : roots = [] := by
  cases roots with
  | nil => rfl
  | cons a l =>
    unfold rootsRange at h
    simp [List.getLast?_cons] at h

theorem applicableRanges_nil {d : TextDoc} {p : Pos} (ha : applicableRanges u cs d roots p = .ok []) : roots = [] := by
  have key : ∀ ps, allParentRanges ps roots = [] → roots = [] := fun ps hx => by
    unfold allParentRanges at hx
    exact rootsRange_nil (List.append_eq_nil_iff.1 hx).2
  unfold applicableRanges at ha
  simp only at ha
  split at ha
  · exact key [] (by simpa using ha)
  · split at ha
    · unfold voidRanges at ha
      split at ha
      · simp at ha
      · obtain ⟨_, _, ha⟩ := bind_ok ha
        obtain ⟨_, _, ha⟩ := bind_ok ha
        obtain ⟨attrs, _, ha⟩ := bind_ok ha
        simp at ha
    · unfold pairRanges at ha
      simp only at ha
      split at ha
      · obtain ⟨_, _, ha⟩ := bind_ok ha
        obtain ⟨attrs, _, ha⟩ := bind_ok ha
        simp at ha
      · split at ha
        · simp at ha
        · split at ha
          · obtain ⟨_, _, ha⟩ := bind_ok ha
            simp at ha
          · simp at ha
    · exact key _ (by simpa using ha)

/-- The contents of the elements around a covered child are in the list. -/
theorem applicableRanges_contents {d : TextDoc} {p : Pos} {l : List (Nat × Nat)} {m : Node} {a b : Nat}
    (h : parse u cs void d.text = .ok roots)
    (hleft : ∀ n, InForest roots n → Covers n (d.offsetAt p) → LeftOpen n →
      ∃ k ∈ n.children, Covers k (d.offsetAt p))
    (ha : applicableRanges u cs d roots p = .ok l) (hm : InForest roots m)
    (hc : Covers m (d.offsetAt p)) (hk : ∃ k ∈ m.children, Covers k (d.offsetAt p))
    (hs1 : m.startTagEnd = some a) (hs2 : m.endTagStart = some b) (hlt : a < b) : (a, b) ∈ l := by
  have hs := findNodeAt_spec (o := d.offsetAt p) (parse_nest h)
  cases hf : findNodeAt roots (d.offsetAt p) with
  | none =>
    rw [hf] at hs
    exact absurd hc (hs m hm)
  | some x =>
    obtain ⟨n, ps⟩ := x
    rw [hf] at hs
    obtain ⟨inner, rfl⟩ := applicableRanges_parents h hleft ha hf
    rcases hs.all m hm hc with h1 | rfl
    · exact List.mem_append_right _ (content_mem_parents h1 hs1 hs2 hlt)
    · obtain ⟨k, k1, k2⟩ := hk
      exact absurd k2 (findNodeAt_leaf (parse_nest h) hf k (.root k1))

/-- The last range is the one of all elements. -/
theorem applicableRanges_last {d : TextDoc} {p : Pos} {l : List (Nat × Nat)} {a b : Node}
    (h : parse u cs void d.text = .ok roots)
    (hleft : ∀ n, InForest roots n → Covers n (d.offsetAt p) → LeftOpen n →
      ∃ k ∈ n.children, Covers k (d.offsetAt p))
    (ha : applicableRanges u cs d roots p = .ok l) (h1 : roots.head? = some a) (h2 : roots.getLast? = some b) :
    l.getLast? = some (a.start, b.stop) := by
  have key : ∀ ps inner, l = inner ++ allParentRanges ps roots → l.getLast? = some (a.start, b.stop) := by
    rintro ps inner rfl
    simp [allParentRanges, rootsRange, h1, h2]
  cases hf : findNodeAt roots (d.offsetAt p) with
  | none =>
    unfold applicableRanges at ha
    simp only [hf] at ha
    cases ha
    exact key [] [] rfl
  | some x =>
    obtain ⟨inner, hi⟩ := applicableRanges_parents h hleft ha hf
    exact key _ inner hi

end Html
