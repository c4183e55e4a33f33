import Verif.Spec.Query
import Verif.Proof.ParseTotal

/-! # Document queries -/

namespace Html
open Spec

/-- Children inside their parent. -/
def NestN (n : Node) : Prop := n.start < n.stop ∧ Siblings n.start n.children n.stop

/-- A forest as the parser builds it. -/
structure NestF (l : List Node) : Prop where
  sib : ∃ lo hi, Siblings lo l hi
  deep : ∀ d ∈ l, Deep NestN d

theorem Deep.imp {P Q : Node → Prop} (h : ∀ n, P n → Q n) {n : Node} (hd : Deep P n) : Deep Q n := by
  induction hd with
  | mk h1 _ ih => exact ⟨h _ h1, ih⟩

theorem Deep.here {P : Node → Prop} {n : Node} (h : Deep P n) : P n := by cases h; assumption

theorem Deep.kids {P : Node → Prop} {n : Node} (h : Deep P n) : ∀ d ∈ n.children, Deep P d := by
  cases h; assumption

theorem Done.nest {c : Cfg} {void : List Str} {n : Node} (h : Done c void n) : NestN n := by
  refine ⟨h.lt, ?_⟩
  have hlt := h.lt
  cases he : n.startTagEnd with
  | none => rw [(h.noste he).1]; simp only [Siblings]; omega
  | some e =>
    obtain ⟨h1, _, h2, h3⟩ := h.ste e he
    cases hc : n.children with
    | nil => simp only [Siblings]; omega
    | cons d l =>
      rw [hc] at h2
      obtain ⟨h4, h5, h6⟩ := h2
      exact ⟨by omega, h5, h6.mono h3⟩

theorem parse_nest {u : Uni} {cs : Bool} {void : List Str} {src : Str} {roots : List Node}
    (h : parse u cs void src = .ok roots) : NestF roots :=
  ⟨⟨0, _, (parse_kids h).sib⟩, fun d hd => ((parse_kids h).done d hd).imp fun _ => Done.nest⟩

theorem NestF.kids {n : Node} (h : Deep NestN n) : NestF n.children := ⟨⟨_, _, h.here.2⟩, h.kids⟩

theorem Spec.Siblings.append {lo hi : Nat} {a b : List Node} (h : Siblings lo (a ++ b) hi) :
    ∃ m, Siblings lo a m ∧ Siblings m b hi := by
  induction a generalizing lo with
  | nil => exact ⟨lo, by simp [Siblings], h⟩
  | cons n a ih =>
    obtain ⟨h1, h2, h3⟩ := h
    obtain ⟨m, h4, h5⟩ := ih h3
    exact ⟨m, ⟨h1, h2, h4⟩, h5⟩

theorem firstIdx_split (p : Node → Bool) (l : List Node) :
    (firstIdx p l = 0 ∧ (∀ n, l.head? = some n → p n = true)) ∨
    (∃ pre ch post, l = pre ++ ch :: post ∧ firstIdx p l = pre.length + 1 ∧ p ch = false ∧
      (∀ n, post.head? = some n → p n = true)) := by
  induction l with
  | nil => simp [firstIdx]
  | cons n l ih =>
    cases hp : p n with
    | true => left; simp [firstIdx, hp]
    | false =>
      right
      rcases ih with ⟨h1, h2⟩ | ⟨pre, ch, post, h1, h2, h3, h4⟩
      · exact ⟨[], n, l, rfl, by simp [firstIdx, hp, h1], hp, h2⟩
      · refine ⟨n :: pre, ch, post, by rw [h1]; rfl, ?_, h3, h4⟩
        simp only [firstIdx, hp, h2, List.length_cons]
        simp; omega

theorem findAtNth_split (o : Nat) (pre : List Node) (ch : Node) (post : List Node) :
    Node.findAtNth o pre.length (pre ++ ch :: post) =
      if o ≥ ch.start ∧ o < ch.stop then some (Node.findAt o ch) else none := by
  induction pre with
  | nil => simp [Node.findAtNth]
  | cons n pre ih => simp only [List.cons_append, List.length_cons, Node.findAtNth, ih]

theorem findBeforeNth_split (o : Nat) (pre : List Node) (ch : Node) (post : List Node) :
    Node.findBeforeNth o pre.length (pre ++ ch :: post) =
      if o > ch.start then
        if o < ch.stop then some (Node.findBefore o ch)
        else if ch.lastChild.any (fun l => l.stop == ch.stop) then some (Node.findBefore o ch)
        else some (ch, [])
      else none := by
  induction pre with
  | nil => simp [Node.findBeforeNth]
  | cons n pre ih => simp only [List.cons_append, List.length_cons, Node.findBeforeNth, ih]

theorem findAt_eq (o : Nat) (n : Node) : Node.findAt o n = match findNodeAt n.children o with
    | some (r, ps) => (r, n :: ps)
    | none => (n, []) := by
  cases n
  simp only [Node.findAt, findNodeAt]
  split <;> rfl

theorem findBefore_eq (o : Nat) (n : Node) : Node.findBefore o n = match findNodeBefore n.children o with
    | some (r, ps) => (r, n :: ps)
    | none => (n, []) := by
  cases n
  simp only [Node.findBefore, findNodeBefore]
  split <;> rfl

theorem inForest_cases {l : List Node} {m : Node} (h : InForest l m) :
    ∃ d ∈ l, m = d ∨ InForest d.children m := by
  induction h with
  | root h => exact ⟨_, h, .inl rfl⟩
  | @child a b hm hc ih =>
    obtain ⟨d, hd, rfl | h⟩ := ih
    · exact ⟨_, hd, .inr (.root hc)⟩
    · exact ⟨d, hd, .inr (.child h hc)⟩

theorem inForest_up {l : List Node} {d m : Node} (hd : d ∈ l) (h : InForest d.children m) : InForest l m := by
  induction h with
  | root h => exact .child (.root hd) h
  | child hm hc ih => exact .child ih hc

theorem inForest_inside {n m : Node} (h : Deep NestN n) (hm : InForest n.children m) :
    n.start ≤ m.start ∧ m.start < m.stop ∧ m.stop ≤ n.stop := by
  induction h with
  | @mk n h1 _ ih =>
    obtain ⟨d, hd, rfl | hm⟩ := inForest_cases hm
    · exact h1.2.mem hd
    · have := ih d hd hm
      have := h1.2.mem hd
      omega

theorem deep_of_mem {P : Node → Prop} {l : List Node} {m : Node} (h : ∀ d ∈ l, Deep P d)
    (hm : InForest l m) : Deep P m := by
  induction hm with
  | root hx => exact h _ hx
  | child _ hc ih => exact ih.kids _ hc

/-- What a search for the node at an offset has to give. -/
structure AtSpec (l : List Node) (o : Nat) (r : Node) (ps : List Node) : Prop where
  covers : Covers r o
  chain : Chain l ps r
  all : ∀ m, InForest l m → Covers m o → m ∈ ps ∨ m = r

theorem findNodeAt_step {l : List Node} {o : Nat} (hl : NestF l)
    (ih : ∀ d ∈ l, match findNodeAt d.children o with
      | some (r, ps) => AtSpec d.children o r ps
      | none => ∀ m, InForest d.children m → ¬ Covers m o) :
    match findNodeAt l o with
      | some (r, ps) => AtSpec l o r ps
      | none => ∀ m, InForest l m → ¬ Covers m o := by
  obtain ⟨lo, hi, hs⟩ := hl.sib
  have key : ∀ d ∈ l, ∀ m, (m = d ∨ InForest d.children m) → Covers m o → Covers d o := by
    intro d hd m hm hc
    rcases hm with rfl | hm
    · exact hc
    · have := inForest_inside (hl.deep d hd) hm
      unfold Covers at *; omega
  unfold findNodeAt
  rcases firstIdx_split (fun ch => decide (o < ch.start)) l with ⟨h1, h2⟩ | ⟨pre, ch, post, h1, h2, h3, h4⟩
  · simp only [h1, Nat.lt_irrefl, gt_iff_lt, if_false]
    intro m hm hc
    replace hm := inForest_cases hm
    obtain ⟨d, hd, hm⟩ := hm
    have hc := key d hd m hm hc
    cases l with
    | nil => simp at hd
    | cons n l =>
      have h2 := h2 n rfl
      simp only [decide_eq_true_eq] at h2
      have : n.start ≤ d.start := by
        rcases List.mem_cons.1 hd with rfl | hd
        · exact Nat.le_refl _
        · have := hs.2.2.mem hd; have := hs.2.1; omega
      unfold Covers at hc; omega
  · subst h1
    have hother : ∀ d ∈ pre ++ ch :: post, Covers d o → d = ch := by
      intro d hd hc
      obtain ⟨m, h5, h6, h7, h8⟩ := hs.append
      rcases List.mem_append.1 hd with hd | hd
      · have := h5.mem hd
        simp only [decide_eq_false_iff_not] at h3
        unfold Covers at hc; omega
      · rcases List.mem_cons.1 hd with rfl | hd
        · rfl
        · exfalso
          cases post with
          | nil => simp at hd
          | cons n post =>
            have h4 := h4 n rfl
            simp only [decide_eq_true_eq] at h4
            have : n.start ≤ d.start := by
              rcases List.mem_cons.1 hd with rfl | hd
              · exact Nat.le_refl _
              · have := h8.2.2.mem hd; have := h8.2.1; omega
            unfold Covers at hc; omega
    simp only [h2, gt_iff_lt, Nat.zero_lt_succ, if_true, Nat.add_sub_cancel, findAtNth_split]
    have hch : ch ∈ pre ++ ch :: post := by simp
    by_cases hcv : o ≥ ch.start ∧ o < ch.stop
    · simp only [hcv, and_self, if_true, findAt_eq]
      have ih := ih ch hch
      revert ih
      cases findNodeAt ch.children o with
      | none =>
        intro ih
        refine ⟨hcv, hch, fun m hm hc => .inr ?_⟩
        replace hm := inForest_cases hm
        obtain ⟨d, hd, hm⟩ := hm
        have := hother d hd (key d hd m hm hc)
        subst this
        rcases hm with hm | hm
        · exact hm
        · exact absurd hc (ih m hm)
      | some x =>
        obtain ⟨r, ps⟩ := x
        intro ih
        refine ⟨ih.covers, ⟨hch, ih.chain⟩, fun m hm hc => ?_⟩
        replace hm := inForest_cases hm
        obtain ⟨d, hd, hm⟩ := hm
        have := hother d hd (key d hd m hm hc)
        subst this
        rcases hm with rfl | hm
        · simp
        · rcases ih.all m hm hc with h | h
          · simp [h]
          · simp [h]
    · rw [if_neg hcv]
      intro m hm hc
      replace hm := inForest_cases hm
      obtain ⟨d, hd, hm⟩ := hm
      have hc := key d hd m hm hc
      have := hother d hd hc
      subst this
      exact hcv hc

theorem findNodeAt_deep {n : Node} {o : Nat} (h : Deep NestN n) :
    match findNodeAt n.children o with
      | some (r, ps) => AtSpec n.children o r ps
      | none => ∀ m, InForest n.children m → ¬ Covers m o := by
  induction h with
  | mk h1 h2 ih => exact findNodeAt_step ⟨⟨_, _, h1.2⟩, h2⟩ ih

theorem findNodeAt_spec {l : List Node} {o : Nat} (h : NestF l) :
    match findNodeAt l o with
      | some (r, ps) => AtSpec l o r ps
      | none => ∀ m, InForest l m → ¬ Covers m o :=
  findNodeAt_step h fun d hd => findNodeAt_deep (h.deep d hd)

theorem chain_inForest {l ps : List Node} {n : Node} (h : Chain l ps n) :
    InForest l n ∧ ∀ p ∈ ps, InForest l p := by
  induction ps generalizing l with
  | nil => exact ⟨.root h, by simp⟩
  | cons p ps ih =>
    obtain ⟨h1, h2⟩ := h
    obtain ⟨h3, h4⟩ := ih h2
    refine ⟨inForest_up h1 h3, fun q hq => ?_⟩
    rcases List.mem_cons.1 hq with rfl | hq
    · exact .root h1
    · exact inForest_up h1 (h4 q hq)

/-- What a search for the node before an offset has to give. -/
structure BeforeSpec (l : List Node) (o : Nat) (r : Node) (ps : List Node) : Prop where
  start : r.start < o
  chain : Chain l ps r
  all : ∀ m, InForest l m → m.start < o → m ∈ ps ∨ m.stop ≤ r.start ∨ m = r ∨ InForest r.children m
  own : (o < r.stop ∧ ∀ d ∈ r.children, o ≤ d.start) ∨ (r.stop ≤ o ∧ ¬ EndsWithLastChild r)
  up : ∀ p ∈ ps, o < p.stop ∨ EndsWithLastChild p

theorem lastChild_any {n : Node} : n.lastChild.any (fun l => l.stop == n.stop) = true ↔ EndsWithLastChild n := by
  unfold Node.lastChild EndsWithLastChild
  cases n.children.getLast? <;> simp

theorem findNodeBefore_step {l : List Node} {o : Nat} (hl : NestF l)
    (ih : ∀ d ∈ l, match findNodeBefore d.children o with
      | some (r, ps) => BeforeSpec d.children o r ps
      | none => ∀ m ∈ d.children, o ≤ m.start) :
    match findNodeBefore l o with
      | some (r, ps) => BeforeSpec l o r ps
      | none => ∀ m ∈ l, o ≤ m.start := by
  obtain ⟨lo, hi, hs⟩ := hl.sib
  have ordered : ∀ {n l lo hi}, Siblings lo (n :: l) hi → o ≤ n.start → ∀ d ∈ n :: l, o ≤ d.start := by
    intro n l lo hi hs hn d hd
    rcases List.mem_cons.1 hd with rfl | hd
    · exact hn
    · have := hs.2.2.mem hd; have := hs.2.1; omega
  unfold findNodeBefore
  rcases firstIdx_split (fun ch => decide (o ≤ ch.start)) l with ⟨h1, h2⟩ | ⟨pre, ch, post, h1, h2, h3, h4⟩
  · simp only [h1, Nat.lt_irrefl, gt_iff_lt, if_false]
    cases l with
    | nil => simp
    | cons n l => exact ordered hs (by simpa using h2 n rfl)
  · subst h1
    simp only [decide_eq_false_iff_not, Nat.not_le] at h3
    have hch : ch ∈ pre ++ ch :: post := by simp
    have hother : ∀ d ∈ pre ++ ch :: post, d.start < o → d.stop ≤ ch.start ∨ d = ch := by
      intro d hd hc
      obtain ⟨m, h5, h6, h7, h8⟩ := hs.append
      rcases List.mem_append.1 hd with hd | hd
      · have := h5.mem hd; left; omega
      · rcases List.mem_cons.1 hd with rfl | hd
        · exact .inr rfl
        · exfalso
          cases post with
          | nil => simp at hd
          | cons n post =>
            have := ordered h8 (by simpa using h4 n rfl) d hd
            omega
    have hall : ∀ m, InForest (pre ++ ch :: post) m → m.start < o → m.stop ≤ ch.start ∨ m = ch ∨
        InForest ch.children m := by
      intro m hm hc
      replace hm := inForest_cases hm
      obtain ⟨d, hd, hm⟩ := hm
      have hdm : d.start ≤ m.start ∧ m.stop ≤ d.stop := by
        rcases hm with rfl | hm
        · omega
        · have := inForest_inside (hl.deep d hd) hm; omega
      rcases hother d hd (by omega) with h | rfl
      · left; omega
      · exact .inr hm
    simp only [h2, gt_iff_lt, Nat.zero_lt_succ, if_true, Nat.add_sub_cancel, findBeforeNth_split, h3]
    have hrec : (o < ch.stop ∨ EndsWithLastChild ch) →
        match some (Node.findBefore o ch) with
        | some (r, ps) => BeforeSpec (pre ++ ch :: post) o r ps
        | none => ∀ m ∈ pre ++ ch :: post, o ≤ m.start := by
      intro hx
      simp only [findBefore_eq]
      have ih := ih ch hch
      have hin := fun m => @inForest_inside ch m (hl.deep ch hch)
      revert ih
      cases findNodeBefore ch.children o with
      | none =>
        intro ih
        show BeforeSpec _ o ch []
        refine ⟨h3, hch, fun m hm hc => .inr (hall m hm hc), ?_, by simp⟩
        rcases hx with hx | hx
        · exact .inl ⟨hx, ih⟩
        · obtain ⟨d, hd, he⟩ := id hx
          have hdm := List.mem_of_getLast? hd
          have h5 := ih d hdm
          have h6 := hin d (.root hdm)
          exact .inl ⟨by omega, ih⟩
      | some x =>
        obtain ⟨r, ps⟩ := x
        intro ih
        show BeforeSpec _ o r (ch :: ps)
        have hr := hin r (chain_inForest ih.chain).1
        refine ⟨ih.start, ⟨hch, ih.chain⟩, fun m hm hc => ?_, ih.own, ?_⟩
        · rcases hall m hm hc with h | rfl | h
          · right; left; omega
          · simp
          · rcases ih.all m h hc with h | h | h | h <;> simp [h]
        · intro p hp
          rcases List.mem_cons.1 hp with rfl | hp
          · exact hx
          · exact ih.up p hp
    by_cases hlt : o < ch.stop
    · simp only [hlt, if_true]
      exact hrec (.inl hlt)
    · simp only [hlt, if_false]
      by_cases hlc : EndsWithLastChild ch
      · simp only [lastChild_any.2 hlc, if_true]
        exact hrec (.inr hlc)
      · have : ch.lastChild.any (fun l => l.stop == ch.stop) = false :=
          Bool.eq_false_iff.2 fun h => hlc (lastChild_any.1 h)
        simp only [this, Bool.false_eq_true, if_false]
        exact ⟨h3, hch, fun m hm hc => .inr (hall m hm hc), .inr ⟨by omega, hlc⟩, by simp⟩

theorem findNodeBefore_deep {n : Node} {o : Nat} (h : Deep NestN n) :
    match findNodeBefore n.children o with
      | some (r, ps) => BeforeSpec n.children o r ps
      | none => ∀ m ∈ n.children, o ≤ m.start := by
  induction h with
  | mk h1 h2 ih => exact findNodeBefore_step ⟨⟨_, _, h1.2⟩, h2⟩ ih

theorem findNodeBefore_spec {l : List Node} {o : Nat} (h : NestF l) :
    match findNodeBefore l o with
      | some (r, ps) => BeforeSpec l o r ps
      | none => ∀ m ∈ l, o ≤ m.start :=
  findNodeBefore_step h fun d hd => findNodeBefore_deep (h.deep d hd)

theorem chain_covers {l ps : List Node} {n : Node} {o : Nat} (hd : ∀ d ∈ l, Deep NestN d)
    (h : Chain l ps n) (hc : Covers n o) : ∀ p ∈ ps, Covers p o := by
  induction ps generalizing l with
  | nil => simp
  | cons p ps ih =>
    obtain ⟨h1, h2⟩ := h
    intro q hq
    rcases List.mem_cons.1 hq with rfl | hq
    · have := inForest_inside (hd _ h1) (chain_inForest h2).1
      unfold Covers at *; omega
    · exact ih (hd _ h1).kids h2 q hq

theorem findNodeAt_empty {l : List Node} {o : Nat} {r : Node} {ps : List Node}
    (h : findNodeAt l o = some (r, ps)) : findNodeAt r.children o = none := by
  suffices H : ∀ k, ∀ l r ps, sizeOf l ≤ k → findNodeAt l o = some (r, ps) → findNodeAt r.children o = none from
    H _ l r ps (Nat.le_refl _) h
  intro k
  induction k with
  | zero => intro l r ps hk; cases l <;> simp at hk
  | succ k ih =>
    intro l r ps hk h
    unfold findNodeAt at h
    rcases firstIdx_split (fun ch => decide (o < ch.start)) l with ⟨h1, h2⟩ | ⟨pre, ch, post, h1, h2, h3, h4⟩
    · simp [h1] at h
    · simp only [h2, gt_iff_lt, Nat.zero_lt_succ, if_true, Nat.add_sub_cancel] at h
      rw [h1, findAtNth_split] at h
      split at h
      · rw [findAt_eq] at h
        cases hf : findNodeAt ch.children o with
        | none => simp only [hf, Option.some.injEq, Prod.mk.injEq] at h; rw [← h.1]; exact hf
        | some x =>
          obtain ⟨r', ps'⟩ := x
          simp only [hf, Option.some.injEq, Prod.mk.injEq] at h
          rw [← h.1]
          refine ih _ _ _ ?_ hf
          have : sizeOf ch.children < sizeOf ch := by cases ch; simp; omega
          have : sizeOf ch < sizeOf l := List.sizeOf_lt_of_mem (by simp [h1])
          omega
      · cases h

theorem findNodeAt_leaf {l : List Node} {o : Nat} {r : Node} {ps : List Node} (hn : NestF l)
    (h : findNodeAt l o = some (r, ps)) : ∀ m, InForest r.children m → ¬ Covers m o := by
  have hs := findNodeAt_spec (o := o) hn
  rw [h] at hs
  have hd := deep_of_mem hn.deep (chain_inForest hs.chain).1
  have := findNodeAt_deep (o := o) hd
  rw [findNodeAt_empty h] at this
  exact this

theorem start_close_ne {src : Str} {a s : Nat} (h1 : At src a b!"<") (h2 : At src (s - 1) b!">")
    (h3 : a < s) : a + 1 ≤ s - 1 := by
  have e1 := at_get h1
  have e2 := at_get h2
  have : a ≠ s - 1 := by rintro rfl; rw [e1] at e2; cases e2
  omega

/-- The name of a complete start tag ends before the `>`. -/
theorem name_before_close {c : Cfg} {void : List Str} {n : Node} {t : Str} {s : Nat} (hd : Done c void n)
    (ht : n.tag = some t) (hs : n.startTagEnd = some s) : n.start + 1 + t.length < s := by
  have hname := hd.name.spec
  rw [ht, hs] at hname
  obtain ⟨w, _, ⟨x, hx⟩, hel, hmax, h9⟩ := hname
  simp only [Option.getD_some] at h9
  have h1 := (hd.ste s hs).2.1
  have e2 := at_get h1
  rcases Nat.lt_or_ge (n.start + 1 + t.length) s with h | h
  · exact h
  · exfalso
    have hl : 0 < t.length := List.length_pos_iff.2 hel.1
    have hw : w.length = 0 := by omega
    have hw : w = [] := List.length_eq_zero_iff.1 hw
    subst hw
    have h3 : (c.src.drop (n.start + 1))[t.length - 1]? = some 62 := by
      rw [List.getElem?_drop]
      have : n.start + 1 + (t.length - 1) = s - 1 := by simp at h9; omega
      rw [this]; exact e2
    rw [hx, List.nil_append, List.getElem?_append_left (by omega)] at h3
    have := hel.2.1 62 (List.mem_of_getElem? h3) (by omega)
    simp [alnum] at this

end Html
