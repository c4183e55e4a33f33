import Verif.Proof.Run
import Verif.Proof.Grammar
import Verif.Proof.Tile
import Verif.Spec.Links

/-!
# Lemmas about document links
-/

namespace Html

open Spec

theorem linkLoop_ok {e : LinkEnv} {d : TextDoc} {c : Cfg} {fuel : Nat} {f r : LinkState} {s : Sc} :
    linkLoop e d c fuel f s = .ok r ↔
      ∃ ts, tokensF c fuel s = .ok ts ∧ ts.foldlM (linkStep e d) f = .ok r := by
  induction fuel generalizing f s with
  | zero => simp [linkLoop, tokensF]
  | succ n ih =>
    unfold linkLoop tokensF
    cases h1 : scan c s with
    | error e => simp [bind, Except.bind]
    | ok s1 =>
      simp only [bind, Except.bind]
      split
      · simp [pure, Except.pure]
      · constructor
        · intro h
          cases h2 : linkStep e d f s1.tok with
          | error e => rw [h2] at h; cases h
          | ok f1 =>
            rw [h2] at h
            obtain ⟨ts, h3, h4⟩ := ih.1 h
            refine ⟨s1.tok :: ts, by rw [h3]; rfl, ?_⟩
            rw [List.foldlM_cons, h2]; exact h4
        · rintro ⟨ts, h3, h4⟩
          cases h5 : tokensF c n s1 with
          | error e => rw [h5] at h3; cases h3
          | ok ts' =>
            rw [h5] at h3
            simp only [pure, Except.pure, Except.ok.injEq] at h3
            subst h3
            rw [List.foldlM_cons] at h4
            cases h2 : linkStep e d f s1.tok with
            | error e => rw [h2] at h4; cases h4
            | ok f1 =>
              rw [h2] at h4
              exact ih.2 ⟨ts', h5, h4⟩

/-! ### Splits -/

theorem mem_splits {α : Type} {l : List α} {p : List α × α} :
    p ∈ splits l ↔ ∃ post, l = p.1 ++ p.2 :: post := by
  induction l generalizing p with
  | nil => simp [splits]
  | cons a l ih =>
    unfold splits
    rw [List.mem_cons, List.mem_map]
    constructor
    · rintro (rfl | ⟨q, hq, rfl⟩)
      · exact ⟨l, rfl⟩
      · obtain ⟨post, h⟩ := ih.1 hq
        exact ⟨post, by rw [h]; rfl⟩
    · rintro ⟨post, h⟩
      obtain ⟨pre, t⟩ := p
      cases pre with
      | nil =>
        simp at h
        exact .inl (by rw [h.1])
      | cons b pre =>
        simp only [List.cons_append, List.cons.injEq] at h
        exact .inr ⟨(pre, t), ih.2 ⟨post, h.2⟩, by rw [h.1]⟩

theorem splits_snoc {α : Type} (l : List α) (t : α) : splits (l ++ [t]) = splits l ++ [(l, t)] := by
  induction l with
  | nil => rfl
  | cons a l ih => simp [splits, ih]

theorem splits_length {α : Type} {l : List α} {p : List α × α} (h : p ∈ splits l) : p.1.length < l.length := by
  obtain ⟨post, rfl⟩ := mem_splits.1 h
  simp

theorem lastOf_snoc_self {k : TT} {pre : List Tok} {t : Tok} (h : t.type = k) :
    lastOf k (pre ++ [t]) = some t := by
  unfold lastOf
  rw [List.filter_append, List.filter_cons_of_pos (by simpa using h)]
  simp

theorem lastOf_snoc_other {k : TT} {pre : List Tok} {t : Tok} (h : t.type ≠ k) :
    lastOf k (pre ++ [t]) = lastOf k pre := by
  unfold lastOf
  rw [List.filter_append, List.filter_cons_of_neg (by simpa using h)]
  simp

theorem awaitsBase_snoc {e : LinkEnv} {src : Str} {pre : List Tok} {t : Tok} :
    awaitsBase e src (pre ++ [t]) ↔
      isBaseTag e src t = true ∨ (awaitsBase e src pre ∧ isPathValue e src (pre, t) = false) := by
  unfold awaitsBase
  rw [splits_snoc]
  constructor
  · rintro ⟨p, hp, hb, hq⟩
    rw [List.mem_append, List.mem_singleton] at hp
    rcases hp with hp | rfl
    · exact .inr ⟨⟨p, hp, hb, fun q hq' => hq q (List.mem_append.2 (.inl hq'))⟩,
        hq _ (by simp) (splits_length hp)⟩
    · exact .inl hb
  · rintro (hb | ⟨⟨p, hp, hb, hq⟩, hn⟩)
    · refine ⟨(pre, t), by simp, hb, ?_⟩
      intro q hq hl
      rw [List.mem_append, List.mem_singleton] at hq
      rcases hq with hq | rfl
      · have := splits_length hq
        simp only at hl
        omega
      · simp at hl
    · refine ⟨p, List.mem_append.2 (.inl hp), hb, ?_⟩
      intro q hq' hl
      rw [List.mem_append, List.mem_singleton] at hq'
      rcases hq' with hq' | rfl
      · exact hq q hq' hl
      · exact hn

theorem awaitsBase_any {e : LinkEnv} {src : Str} {pre : List Tok} (h : awaitsBase e src pre) :
    pre.any (isBaseTag e src) = true := by
  obtain ⟨p, hp, hb, -⟩ := h
  obtain ⟨post, rfl⟩ := mem_splits.1 hp
  simp [hb]

theorem baseValue_snoc {e : LinkEnv} {src : Str} {pre : List Tok} {t : Tok} :
    baseValue e src (pre ++ [t]) = (baseValue e src pre).or
      (if isPathValue e src (pre, t) && pre.any (isBaseTag e src) then some (pre, t) else none) := by
  unfold baseValue
  rw [splits_snoc, List.find?_append]
  congr 1
  rw [List.find?_singleton]

/-- Without a base value, any `base` tag is still waiting. -/
theorem awaitsBase_of_none {e : LinkEnv} {src : Str} {pre : List Tok} (h : baseValue e src pre = none)
    (ha : pre.any (isBaseTag e src) = true) : awaitsBase e src pre := by
  obtain ⟨t, ht, hb⟩ := List.any_eq_true.1 ha
  obtain ⟨a, b, rfl⟩ := List.append_of_mem ht
  refine ⟨(a, t), mem_splits.2 ⟨b, rfl⟩, hb, ?_⟩
  intro q hq hl
  have := List.find?_eq_none.1 h q hq
  obtain ⟨post, hpost⟩ := mem_splits.1 hq
  have hmem : t ∈ q.1 := by
    have h1 : (q.1 ++ q.2 :: post)[a.length]? = some t := by rw [← hpost]; simp
    rw [List.getElem?_append_left hl] at h1
    exact List.mem_of_getElem? h1
  have hany : q.1.any (isBaseTag e src) = true := List.any_eq_true.2 ⟨t, hmem, hb⟩
  simp [hany] at this
  exact this

/-! ### Values -/

theorem normalizeRef_ok {v w : Str} (h : normalizeRef v = .ok w) :
    w = bare v ∧ (w.length < v.length ↔ quoted v = true) := by
  unfold normalizeRef at h
  unfold bare quoted
  split at h
  · rename_i hc
    have h2 : 2 ≤ v.length := by
      unfold sliceStr at h
      split at h
      · rename_i hs
        simp only [Bool.and_eq_true, decide_eq_true_eq] at hs
        omega
      · cases h
    have hw : w = (v.take (v.length - 1)).drop 1 := by
      unfold sliceStr at h
      split at h
      · injection h with h; exact h.symm
      · cases h
    have hq : (decide (2 ≤ v.length) && decide (v.head? = v.getLast?) &&
        (decide (v.head? = some 39) || decide (v.head? = some 34))) = true := by
      simp only [Bool.and_eq_true, Bool.or_eq_true, decide_eq_true_eq]
      exact ⟨⟨h2, hc.2.1⟩, hc.2.2⟩
    rw [if_pos hq]
    refine ⟨?_, ?_⟩
    · rw [hw, List.dropLast_eq_take, List.drop_take, List.drop_one, List.length_tail]
    · rw [hw]
      simp only [hq, iff_true]
      simp
      omega
  · rename_i hc
    injection h with h
    subst h
    have hq : (decide (2 ≤ v.length) && decide (v.head? = v.getLast?) &&
        (decide (v.head? = some 39) || decide (v.head? = some 34))) = false := by
      rw [Bool.eq_false_iff]
      intro hh
      simp only [Bool.and_eq_true, Bool.or_eq_true, decide_eq_true_eq] at hh
      exact hc ⟨by omega, hh.1.2, hh.2⟩
    rw [hq]
    simp

theorem createLink_ok {e : LinkEnv} {d : TextDoc} {t : Tok} {base : Option Str} {r : Option DocLink}
    (h : createLink e d (text d.text t) t.offset t.stop base = .ok r) :
    r = (refersTo e base (text d.text t)).map (fun x => ⟨valueRange d t, x⟩) := by
  unfold createLink at h
  obtain ⟨w, hw, h⟩ := bind_ok h
  obtain ⟨rfl, hq⟩ := normalizeRef_ok hw
  unfold refersTo
  split at h
  · rename_i hv
    injection h with h
    rw [if_neg (by rw [hv]; simp)]
    exact h.symm
  · rename_i hv
    rw [if_pos (by simpa using hv)]
    obtain ⟨stop', hs, h⟩ := bind_ok h
    obtain ⟨url, hu, h⟩ := bind_ok h
    rw [hu]
    have hr : valueRange d t = ⟨d.posAt (if (bare (text d.text t)).length < (text d.text t).length then
        t.offset + 1 else t.offset), d.posAt stop'⟩ := by
      unfold valueRange
      by_cases hc : quoted (text d.text t) = true
      · rw [if_pos hc, if_pos (hq.2 hc)]
        unfold linkStop at hs
        rw [if_pos (decide_eq_true (hq.2 hc))] at hs
        unfold subU at hs
        split at hs
        · injection hs with hs; rw [hs]
        · cases hs
      · rw [if_neg hc, if_neg (fun x => hc (hq.1 x))]
        unfold linkStop at hs
        rw [if_neg (fun x => hc (hq.1 (of_decide_eq_true x)))] at hs
        injection hs with hs
        rw [hs]
    cases url with
    | none =>
      injection h with h
      exact h.symm
    | some url =>
      dsimp only at h
      obtain ⟨tg, htg, h⟩ := bind_ok h
      injection h with h
      dsimp only
      rw [htg, hr, ← h]
      rfl

theorem isPathAttribute_id (tag : Str) : isPathAttribute tag b!"id" = false := by
  unfold isPathAttribute
  rw [if_neg (by decide)]
  have key : ∀ (m : HMap (List Str)), (∀ x ∈ m, x.2.contains b!"id" = false) →
      (match HMap.find m tag with
        | some attrs => attrs.contains b!"id"
        | none => false) = false := by
    intro m
    induction m with
    | nil => intro _; rfl
    | cons x m ih =>
      intro hm
      obtain ⟨k, v⟩ := x
      unfold HMap.find
      by_cases h : k = tag
      · rw [if_pos h]; exact hm (k, v) (by simp)
      · rw [if_neg h]; exact ih (fun y hy => hm y (List.mem_cons_of_mem _ hy))
  exact key _ (by decide)

/-! ### The loop -/

theorem lastNonWs_split {pre : List Tok} {k : TT} (h : lastNonWs (pre.map Tok.type) = some k) :
    ∃ p a w, pre = p ++ a :: w ∧ a.type = k ∧ ∀ x ∈ w, x.type = .Whitespace := by
  generalize hr : pre.reverse = r
  induction r generalizing pre with
  | nil =>
    have : pre = [] := by simpa using hr
    subst this
    simp [lastNonWs] at h
  | cons x r ih =>
    have hp : pre = r.reverse ++ [x] := by
      rw [← List.reverse_reverse pre, hr]; simp
    subst hp
    by_cases hx : x.type = .Whitespace
    · have h' : lastNonWs (r.reverse.map Tok.type) = some k := by
        unfold lastNonWs at h ⊢
        rw [List.map_append, List.filter_append] at h
        simpa [hx] using h
      obtain ⟨p, a, w, e, ha, hw⟩ := ih h' (by simp)
      refine ⟨p, a, w ++ [x], by rw [e]; simp, ha, ?_⟩
      intro y hy
      rw [List.mem_append, List.mem_singleton] at hy
      rcases hy with hy | rfl
      · exact hw y hy
      · exact hx
    · refine ⟨r.reverse, x, [], rfl, ?_, by simp⟩
      unfold lastNonWs at h
      rw [List.map_append, List.filter_append] at h
      simpa [hx] using h

/-- The grammar at every token. -/
def Grammatical (ts : List Tok) : Prop := ∀ p ∈ splits ts, MayFollow (p.1.map Tok.type) p.2.type

theorem Grammatical.left {ts us : List Tok} (h : Grammatical (ts ++ us)) : Grammatical ts := by
  intro p hp
  obtain ⟨post, e⟩ := mem_splits.1 hp
  exact h p (mem_splits.2 ⟨post ++ us, by rw [e]; simp⟩)

/-- In front of a value there is a name, without another value in between. -/
theorem Grammatical.value {pre : List Tok} {t : Tok} (h : Grammatical (pre ++ [t]))
    (ht : t.type = .AttributeValue) :
    ∃ p a w, pre = p ++ a :: w ∧ a.type = .AttributeName ∧ ∀ x ∈ w, x.type ≠ .AttributeValue := by
  have h1 := h (pre, t) (by rw [splits_snoc]; simp)
  rw [ht] at h1
  have h2 : (pre.map Tok.type).getLast? = some .DelimiterAssign := h1.1
  rw [List.getLast?_map] at h2
  cases hl : pre.getLast? with
  | none => rw [hl] at h2; cases h2
  | some x =>
    rw [hl] at h2
    simp only [Option.map_some, Option.some.injEq] at h2
    obtain ⟨pre', rfl⟩ := List.getLast?_eq_some_iff.1 hl
    have h3 := h.left (pre', x) (by rw [splits_snoc]; simp)
    rw [h2] at h3
    obtain ⟨p, a, w, e, ha, hw⟩ := lastNonWs_split h3.1
    subst e
    refine ⟨p, a, w ++ [x], by simp, ha, ?_⟩
    intro y hy
    rw [List.mem_append, List.mem_singleton] at hy
    rcases hy with hy | rfl
    · rw [hw y hy]; simp
    · rw [h2]; simp

/-- What the local variables hold after the tokens `pre`. -/
structure LinkInv (e : LinkEnv) (d : TextDoc) (pre : List Tok) (st : LinkState) : Prop where
  tag : st.lastTag = tagAt e d.text pre
  attr : ∀ x, st.lastAttr = some x → attrAt e d.text pre = some x
  opened : ∀ p a w, pre = p ++ a :: w → a.type = .AttributeName → (∀ x ∈ w, x.type ≠ .AttributeValue) →
    st.lastAttr.isSome
  inBase : st.inBase = true ↔ awaitsBase e d.text pre
  base : st.base = baseAt e d.text pre
  baseSome : st.base.isSome = (baseValue e d.text pre).isSome
  links : st.links = ((splits pre).filterMap (linkOf e d)).map (fun x => ⟨valueRange d x.1, x.2⟩)
  ids : ∀ id, st.ids.lookup id = idOffset e d.text pre id

theorem LinkInv.nil (e : LinkEnv) (d : TextDoc) :
    LinkInv e d [] ⟨[], none, none, false, none, []⟩ where
  tag := rfl
  attr := by simp
  opened := by simp
  inBase := by simp [awaitsBase, splits]
  base := rfl
  baseSome := rfl
  links := rfl
  ids := fun _ => rfl

theorem isPathValue_type {e : LinkEnv} {src : Str} {pre : List Tok} {t : Tok} (h : t.type ≠ .AttributeValue) :
    isPathValue e src (pre, t) = false := by
  unfold isPathValue
  simp [h]

theorem isIdValue_type {e : LinkEnv} {src : Str} {pre : List Tok} {t : Tok} (h : t.type ≠ .AttributeValue) :
    isIdValue e src (pre, t) = false := by
  unfold isIdValue
  simp [h]

theorem isBaseTag_type {e : LinkEnv} {src : Str} {t : Tok} (h : t.type ≠ .StartTag) :
    isBaseTag e src t = false := by
  unfold isBaseTag
  simp [h]

theorem linkOf_not_path {e : LinkEnv} {d : TextDoc} {p : List Tok × Tok}
    (h : isPathValue e d.text p = false) : linkOf e d p = none := by
  unfold linkOf
  rw [if_neg (by simp [h])]

/-- The parts of the invariant that do not change at a token that is not a path value. -/
theorem LinkInv.plain {e : LinkEnv} {d : TextDoc} {pre : List Tok} {st : LinkState} {t : Tok}
    (h : LinkInv e d pre st) (hp : isPathValue e d.text (pre, t) = false) :
    st.base = baseAt e d.text (pre ++ [t]) ∧ st.base.isSome = (baseValue e d.text (pre ++ [t])).isSome ∧
    st.links = ((splits (pre ++ [t])).filterMap (linkOf e d)).map (fun x => ⟨valueRange d x.1, x.2⟩) := by
  have hb : baseValue e d.text (pre ++ [t]) = baseValue e d.text pre := by
    rw [baseValue_snoc, hp]; simp
  refine ⟨?_, ?_, ?_⟩
  · unfold baseAt; rw [hb]; exact h.base
  · rw [hb]; exact h.baseSome
  · rw [splits_snoc, List.filterMap_append, List.filterMap_cons_none (linkOf_not_path hp)]
    simp [h.links]

theorem LinkInv.ids_plain {e : LinkEnv} {d : TextDoc} {pre : List Tok} {st : LinkState} {t : Tok}
    (h : LinkInv e d pre st) (hp : isIdValue e d.text (pre, t) = false) :
    ∀ id, st.ids.lookup id = idOffset e d.text (pre ++ [t]) id := by
  intro id
  unfold idOffset
  rw [splits_snoc, List.filter_append, List.filter_cons_of_neg (by simp [hp]), List.filter_nil, List.append_nil]
  exact h.ids id

theorem LinkInv.opened_snoc {e : LinkEnv} {d : TextDoc} {pre : List Tok} {st st' : LinkState} {t : Tok}
    (h : LinkInv e d pre st) (h1 : t.type = .AttributeName → st'.lastAttr.isSome)
    (h2 : t.type ≠ .AttributeValue → st.lastAttr.isSome → st'.lastAttr.isSome) :
    ∀ p a w, pre ++ [t] = p ++ a :: w → a.type = .AttributeName → (∀ x ∈ w, x.type ≠ .AttributeValue) →
      st'.lastAttr.isSome := by
  intro p a w e ha hw
  rcases List.eq_nil_or_concat w with rfl | ⟨w', x, rfl⟩
  · have := List.append_inj' e rfl
    simp at this
    rw [this.2] at h1
    exact h1 ha
  · have e2 : pre ++ [t] = (p ++ a :: w') ++ [x] := by rw [e]; simp
    have := List.append_inj' e2 rfl
    simp only [List.cons.injEq, and_true] at this
    obtain ⟨ep, et⟩ := this
    subst et
    exact h2 (hw _ (by simp)) (h.opened p a w' ep ha (fun y hy => hw y (by simp [hy])))

theorem sliceStr_text {src : Str} {t : Tok} {x : Str} (h : sliceStr src t.offset t.stop = .ok x) :
    x = text src t := by
  unfold sliceStr at h
  split at h
  · injection h with h; exact h.symm
  · cases h

theorem tagAt_other {e : LinkEnv} {src : Str} {pre : List Tok} {t : Tok} (h : t.type ≠ .StartTag) :
    tagAt e src (pre ++ [t]) = tagAt e src pre := by
  unfold tagAt; rw [lastOf_snoc_other h]

theorem attrAt_other {e : LinkEnv} {src : Str} {pre : List Tok} {t : Tok} (h : t.type ≠ .AttributeName) :
    attrAt e src (pre ++ [t]) = attrAt e src pre := by
  unfold attrAt; rw [lastOf_snoc_other h]

/-- A token that changes nothing. -/
theorem LinkInv.skip {e : LinkEnv} {d : TextDoc} {pre : List Tok} {st : LinkState} {t : Tok}
    (h : LinkInv e d pre st) (h1 : t.type ≠ .StartTag) (h2 : t.type ≠ .AttributeName)
    (h3 : isPathValue e d.text (pre, t) = false) (h4 : isIdValue e d.text (pre, t) = false)
    (h5 : t.type ≠ .AttributeValue ∨ st.lastAttr.isSome) : LinkInv e d (pre ++ [t]) st := by
  obtain ⟨b1, b2, b3⟩ := h.plain h3
  refine ⟨?_, ?_, ?_, ?_, b1, b2, b3, h.ids_plain h4⟩
  · rw [tagAt_other h1]; exact h.tag
  · intro x hx; rw [attrAt_other h2]; exact h.attr x hx
  · exact h.opened_snoc (fun x => absurd x h2) (fun _ x => x)
  · rw [awaitsBase_snoc, isBaseTag_type h1, h.inBase]
    simp [h3]

theorem LinkInv.step {e : LinkEnv} {d : TextDoc} {pre : List Tok} {st st' : LinkState} {t : Tok}
    (h : LinkInv e d pre st) (hg : Grammatical (pre ++ [t])) (hs : linkStep e d st t = .ok st') :
    LinkInv e d (pre ++ [t]) st' := by
  unfold linkStep at hs
  split at hs
  · -- a start tag
    rename_i ht
    obtain ⟨x, hx, hs⟩ := bind_ok hs
    have hx := sliceStr_text hx
    subst hx
    injection hs with hs
    subst hs
    have hv : t.type ≠ .AttributeValue := by rw [ht]; simp
    obtain ⟨b1, b2, b3⟩ := h.plain (isPathValue_type hv)
    refine ⟨?_, ?_, ?_, ?_, b1, b2, b3, h.ids_plain (isIdValue_type hv)⟩
    · unfold tagAt; rw [lastOf_snoc_self ht]; rfl
    · intro x hx; rw [attrAt_other (by rw [ht]; simp)]; exact h.attr x hx
    · exact h.opened_snoc (fun x => by rw [ht] at x; cases x) (fun _ x => x)
    · rw [awaitsBase_snoc, isPathValue_type hv, ← h.inBase]
      simp only [and_true, isBaseTag, ht, decide_true, Bool.true_and, Bool.or_eq_true, beq_iff_eq,
        decide_eq_true_eq]
      exact Or.comm
  · -- an attribute name
    rename_i ht
    obtain ⟨x, hx, hs⟩ := bind_ok hs
    have hx := sliceStr_text hx
    subst hx
    injection hs with hs
    subst hs
    have hv : t.type ≠ .AttributeValue := by rw [ht]; simp
    have hst : t.type ≠ .StartTag := by rw [ht]; simp
    obtain ⟨b1, b2, b3⟩ := h.plain (isPathValue_type hv)
    refine ⟨?_, ?_, ?_, ?_, b1, b2, b3, h.ids_plain (isIdValue_type hv)⟩
    · rw [tagAt_other hst]; exact h.tag
    · intro x hx
      unfold attrAt
      rw [lastOf_snoc_self ht]
      exact hx
    · exact h.opened_snoc (fun x => rfl) (fun _ _ => rfl)
    · rw [awaitsBase_snoc, isPathValue_type hv, isBaseTag_type hst, ← h.inBase]
      simp
  · -- an attribute value
    rename_i ht
    have hst : t.type ≠ .StartTag := by rw [ht]; simp
    have hat : t.type ≠ .AttributeName := by rw [ht]; simp
    obtain ⟨p, a, w, ep, ha, hw⟩ := hg.value ht
    have hsome := h.opened p a w ep ha hw
    obtain ⟨attr, hattr⟩ := Option.isSome_iff_exists.1 hsome
    have hattr2 := h.attr attr hattr
    rw [hattr] at hs
    cases htag : st.lastTag with
    | none =>
      rw [htag] at hs
      injection hs with hs
      subst hs
      have htag2 := h.tag
      rw [htag] at htag2
      refine h.skip hst hat ?_ ?_ (.inr hsome)
      · unfold isPathValue; simp [← htag2]
      · unfold isIdValue; simp [← htag2]
    | some tag =>
      rw [htag] at hs
      have htag2 := h.tag
      rw [htag] at htag2
      have hpv : isPathValue e d.text (pre, t) = isPathAttribute tag attr := by
        unfold isPathValue; simp [← htag2, hattr2, ht]
      have hid : isIdValue e d.text (pre, t) = decide (attr = b!"id") := by
        unfold isIdValue; simp [← htag2, hattr2, ht]
      dsimp only at hs
      split at hs
      · rename_i hpa
        rw [hpa] at hpv
        have hid' : isIdValue e d.text (pre, t) = false := by
          rw [hid, decide_eq_false_iff_not]
          intro he
          rw [he, isPathAttribute_id] at hpa
          cases hpa
        unfold linkPath at hs
        obtain ⟨x, hx, hs⟩ := bind_ok hs
        have hx := sliceStr_text hx
        subst hx
        obtain ⟨links, hlinks, hs⟩ := bind_ok hs
        obtain ⟨base, hbase, hs⟩ := bind_ok hs
        injection hs with hs
        subst hs
        unfold pathLinks at hlinks
        unfold pathBase at hbase
        refine ⟨?_, ?_, ?_, ?_, ?_, ?_, ?_, h.ids_plain hid'⟩
        · rw [tagAt_other hst]; exact h.tag
        · intro x hx; cases hx
        · intro p' a' w' e' ha' hw'
          rcases List.eq_nil_or_concat w' with rfl | ⟨w'', y, rfl⟩
          · have := List.append_inj' e' rfl
            simp at this
            rw [← this.2] at ha'
            exact absurd ha' hat
          · have e2 : pre ++ [t] = (p' ++ a' :: w'') ++ [y] := by rw [e']; simp
            have := List.append_inj' e2 rfl
            simp only [List.cons.injEq, and_true] at this
            exact absurd ht (by rw [this.2]; exact hw' y (by simp))
        · rw [awaitsBase_snoc, isBaseTag_type hst, hpv]
          simp
        · -- base
          dsimp only
          unfold baseAt
          rw [baseValue_snoc, hpv]
          cases hbv : baseValue e d.text pre with
          | some q =>
            have hne : st.base ≠ none := by
              intro hn
              have := h.baseSome
              rw [hn, hbv] at this
              cases this
            rw [if_neg (fun x => hne x.2)] at hbase
            injection hbase with hbase
            rw [← hbase, h.base]
            unfold baseAt
            rw [hbv]
            rfl
          | none =>
            have hn : st.base = none := by
              have := h.baseSome
              rw [hbv] at this
              simpa using this
            by_cases hib : st.inBase = true
            · rw [if_pos ⟨hib, hn⟩] at hbase
              have hany := awaitsBase_any (h.inBase.1 hib)
              rw [hany]
              cases hnb : newBase e (text d.text t) with
              | error er => rw [hnb] at hbase; cases hbase
              | ok nb =>
                rw [hnb] at hbase
                injection hbase with hbase
                rw [← hbase]
                simp [hnb, Except.toOption]
            · rw [if_neg (fun x => hib x.1)] at hbase
              injection hbase with hbase
              have hany : pre.any (isBaseTag e d.text) = false := by
                rw [Bool.eq_false_iff]
                intro hh
                exact hib (h.inBase.2 (awaitsBase_of_none hbv hh))
              rw [hany, ← hbase, hn]
              rfl
        · dsimp only
          rw [baseValue_snoc, hpv]
          cases hbv : baseValue e d.text pre with
          | some q =>
            have hbs := h.baseSome
            rw [hbv] at hbs
            have hne : st.base ≠ none := by
              intro hn
              rw [hn] at hbs
              cases hbs
            rw [if_neg (fun x => hne x.2)] at hbase
            injection hbase with hbase
            rw [← hbase, hbs]
            rfl
          | none =>
            have hn : st.base = none := by
              have := h.baseSome
              rw [hbv] at this
              simpa using this
            by_cases hib : st.inBase = true
            · rw [if_pos ⟨hib, hn⟩] at hbase
              have hany := awaitsBase_any (h.inBase.1 hib)
              rw [hany]
              cases hnb : newBase e (text d.text t) with
              | error er => rw [hnb] at hbase; cases hbase
              | ok nb =>
                rw [hnb] at hbase
                injection hbase with hbase
                rw [← hbase]
                rfl
            · rw [if_neg (fun x => hib x.1)] at hbase
              injection hbase with hbase
              have hany : pre.any (isBaseTag e d.text) = false := by
                rw [Bool.eq_false_iff]
                intro hh
                exact hib (h.inBase.2 (awaitsBase_of_none hbv hh))
              rw [hany, ← hbase, hn]
              rfl
        · dsimp only
          rw [splits_snoc, List.filterMap_append, List.map_append, ← h.links]
          by_cases hib : st.inBase = true
          · rw [if_pos hib] at hlinks
            injection hlinks with hlinks
            have : linkOf e d (pre, t) = none := by
              unfold linkOf
              rw [if_neg (fun x => x.2 (h.inBase.1 hib))]
            rw [List.filterMap_cons_none this, hlinks]
            simp
          · rw [if_neg hib] at hlinks
            obtain ⟨r, hr, hlinks⟩ := bind_ok hlinks
            have hr := createLink_ok hr
            have hl : linkOf e d (pre, t) = (refersTo e st.base (text d.text t)).map (fun x => (t, x)) := by
              unfold linkOf
              rw [if_pos ⟨hpv, fun x => hib (h.inBase.2 x)⟩, ← h.base]
            cases hrt : refersTo e st.base (text d.text t) with
            | none =>
              rw [hrt] at hr hl
              subst hr
              injection hlinks with hlinks
              rw [List.filterMap_cons_none hl, hlinks]
              simp
            | some x =>
              rw [hrt] at hr hl
              subst hr
              injection hlinks with hlinks
              rw [List.filterMap_cons_some hl, ← hlinks]
              simp
      · rename_i hpa
        have hpa : isPathAttribute tag attr = false := by simpa using hpa
        rw [hpa] at hpv
        split at hs
        · rename_i hidn
          unfold linkId at hs
          obtain ⟨x, hx, hs⟩ := bind_ok hs
          have hx := sliceStr_text hx
          subst hx
          obtain ⟨id, hid2, hs⟩ := bind_ok hs
          obtain ⟨rfl, -⟩ := normalizeRef_ok hid2
          injection hs with hs
          subst hs
          obtain ⟨b1, b2, b3⟩ := h.plain hpv
          refine ⟨?_, ?_, ?_, ?_, b1, b2, b3, ?_⟩
          · rw [tagAt_other hst]; exact h.tag
          · intro x hx; rw [attrAt_other hat]; exact h.attr x hx
          · exact h.opened_snoc (fun x => absurd x hat) (fun _ x => x)
          · rw [awaitsBase_snoc, isBaseTag_type hst, h.inBase]
            simp [hpv]
          · intro id
            unfold idOffset
            rw [splits_snoc, List.filter_append]
            by_cases he : bare (text d.text t) = id
            · rw [List.filter_cons_of_pos (by simp [hid, hidn, he])]
              simp [he]
            · rw [List.filter_cons_of_neg (by simp [hid, hidn, he])]
              rw [List.lookup_cons]
              have : (id == bare (text d.text t)) = false := by
                rw [beq_eq_false_iff_ne]; exact fun x => he x.symm
              simp only [this]
              rw [List.filter_nil, List.append_nil]
              exact h.ids id
        · rename_i hidn
          injection hs with hs
          subst hs
          exact h.skip hst hat hpv (by rw [hid]; simpa using hidn) (.inr hsome)
  · rename_i h1 h2 h3
    injection hs with hs
    subst hs
    exact h.skip h1 h2 (isPathValue_type h3) (isIdValue_type h3) (.inl h3)

theorem LinkInv.run {e : LinkEnv} {d : TextDoc} {ts pre : List Tok} {st st' : LinkState}
    (h : LinkInv e d pre st) (hg : Grammatical (pre ++ ts)) (hs : ts.foldlM (linkStep e d) st = .ok st') :
    LinkInv e d (pre ++ ts) st' := by
  induction ts generalizing pre st with
  | nil =>
    injection hs with hs
    subst hs
    simpa using h
  | cons t ts ih =>
    rw [List.foldlM_cons] at hs
    obtain ⟨st1, h1, hs⟩ := bind_ok hs
    have e1 : pre ++ t :: ts = (pre ++ [t]) ++ ts := by simp
    rw [e1] at hg ⊢
    exact ih (h.step hg.left h1) hg hs

theorem tokens_grammatical {c : Cfg} {ts : List Tok} (h : tokens c (.new 0 .WithinContent) = .ok ts) :
    Grammatical ts := by
  intro p hp
  obtain ⟨post, e⟩ := mem_splits.1 hp
  obtain ⟨s2, hr, _⟩ := tokens_run h
  have := hr.grammar (hist := []) (by simp [GInv, Sc.new, lastBracket]) e
  simpa using this

theorem finishLink_ok {e : LinkEnv} {d : TextDoc} {ids : List (Str × Nat)} {ts : List Tok} {l r : DocLink}
    (hi : ∀ id, ids.lookup id = idOffset e d.text ts id) (h : finishLink e d ids l = .ok r) :
    r = ⟨l.range, finalTarget e d ts l.target⟩ := by
  unfold finishLink at h
  unfold finalTarget
  obtain ⟨range, target⟩ := l
  cases target with
  | none => injection h with h; exact h.symm
  | some x =>
    dsimp only at h ⊢
    split at h
    · rename_i hp
      rw [if_pos hp]
      rw [hi] at h
      cases hid : idOffset e d.text ts (x.drop (e.uri.length + 1)) with
      | none =>
        rw [hid] at h
        injection h with h
        exact h.symm
      | some o =>
        rw [hid] at h
        dsimp only at h
        obtain ⟨y, hy, h⟩ := bind_ok h
        injection h with h
        rw [← h]
        unfold unwrap UriLib.create at hy
        split at hy
        · rename_i z hz
          injection hy with hy
          subst hy
          split at hz
          · injection hz with hz
            subst hz
            rfl
          · cases hz
        · cases hy
    · rename_i hp
      rw [if_neg hp]
      injection h with h
      exact h.symm

theorem mapM_ok_map {α β : Type} {f : α → R β} {g : α → β} {l : List α} {r : List β}
    (hfg : ∀ a b, f a = .ok b → b = g a) (h : l.mapM f = .ok r) : r = l.map g := by
  induction l generalizing r with
  | nil => simp at h; injection h with h; exact h.symm
  | cons a l ih =>
    rw [List.mapM_cons] at h
    obtain ⟨b, hb, h⟩ := bind_ok h
    obtain ⟨bs, hbs, h⟩ := bind_ok h
    injection h with h
    rw [← h, ih hbs, hfg a b hb]
    rfl

theorem findDocumentLinks_ok {e : LinkEnv} {d : TextDoc} {links : List DocLink}
    (h : findDocumentLinks e d = .ok links) :
    ∃ ts, tokens ⟨e.uni, d.text, false, e.caseSensitive⟩ (.new 0 .WithinContent) = .ok ts ∧
      links = ((splits ts).filterMap (linkOf e d)).map
        (fun x => ⟨valueRange d x.1, finalTarget e d ts x.2⟩) := by
  unfold findDocumentLinks at h
  obtain ⟨st, hl, h⟩ := bind_ok h
  obtain ⟨ts, hts, hf⟩ := linkLoop_ok.1 hl
  have hts' : tokens ⟨e.uni, d.text, false, e.caseSensitive⟩ (.new 0 .WithinContent) = .ok ts := hts
  refine ⟨ts, hts', ?_⟩
  have hinv := (LinkInv.nil e d).run (ts := ts) (by simpa using tokens_grammatical hts') hf
  simp only [List.nil_append] at hinv
  have := mapM_ok_map (g := fun l => ⟨l.range, finalTarget e d ts l.target⟩)
    (fun a b hab => finishLink_ok hinv.ids hab) h
  rw [this, hinv.links, List.map_map]
  rfl

end Html
