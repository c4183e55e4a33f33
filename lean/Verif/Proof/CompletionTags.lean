import Verif.Proof.Completion
import Verif.Proof.LinkTotal

/-! # Quote and tag completion in terms of the tokens of the document -/

namespace Html
open Spec Props

variable {void : List Str}

/-! ### Positions in a token list -/

theorem pos_unique {ts p1 p2 q1 q2 : List Tok} {t1 t2 : Tok} {a b : Nat} (hc : Contiguous a ts b)
    (h1 : ts = p1 ++ t1 :: q1) (h2 : ts = p2 ++ t2 :: q2) (ho : t1.offset = t2.offset)
    (n1 : t1.offset < t1.stop) (n2 : t2.offset < t2.stop) : p1 = p2 ∧ t1 = t2 ∧ q1 = q2 := by
  have key : ∀ {p1 r q1 q2 : List Tok} {t1 t2 : Tok}, ts = p1 ++ t1 :: q1 → t1 :: q1 = r ++ t2 :: q2 →
      t1.offset = t2.offset → t1.offset < t1.stop → r = [] := by
    intro p1 r q1 q2 t1 t2 h1 h2 ho hn
    cases r with
    | nil => rfl
    | cons x r =>
      simp only [List.cons_append, List.cons.injEq] at h2
      obtain ⟨rfl, rfl⟩ := h2
      rw [h1] at hc
      obtain ⟨m, _, hc, _⟩ := contiguous_split hc
      obtain ⟨_, _, hc⟩ := hc
      have := contiguous_ge hc (t := t2) (by simp)
      omega
  have he : p1 ++ t1 :: q1 = p2 ++ t2 :: q2 := by rw [← h1, ← h2]
  rcases List.append_eq_append_iff.1 he with ⟨r, hp, hr⟩ | ⟨r, hp, hr⟩
  · have := key h1 hr ho n1
    subst this
    simp_all
  · have := key h2 hr ho.symm n2
    subst this
    simp_all

/-- The first of two tokens. -/
theorem before_of_lt {ts : List Tok} {t1 t2 : Tok} {a b : Nat} (hc : Contiguous a ts b) {p1 q1 : List Tok}
    (h1 : ts = p1 ++ t1 :: q1) (h2 : t2 ∈ ts) (h : t1.offset < t2.stop) (n2 : t2 ≠ t1) : t2 ∈ q1 := by
  rw [h1] at h2 hc
  rcases List.mem_append.1 h2 with hm | hm
  · obtain ⟨m, hp, hc, _⟩ := contiguous_split hc
    have := (contiguous_le hp).2 t2 hm
    have := hc.1
    omega
  · rcases List.mem_cons.1 hm with rfl | hm
    · exact absurd rfl n2
    · exact hm

theorem seg_order {mid mid' post post' : List Tok} {t x : Tok} (h : mid ++ t :: post = mid' ++ x :: post')
    (hm : ∀ y ∈ mid, isBracket y.type = false) (ht : isBracket t.type = false) (hx : isBracket x.type = true) :
    ∃ q, mid' = mid ++ t :: q := by
  rcases List.append_eq_append_iff.1 h with ⟨r, hp, hr⟩ | ⟨r, hp, hr⟩
  · cases r with
    | nil =>
      simp only [List.nil_append, List.cons.injEq] at hr
      rw [hr.1, hx] at ht; cases ht
    | cons y r =>
      simp only [List.cons_append, List.cons.injEq] at hr
      obtain ⟨rfl, _⟩ := hr
      exact ⟨r, hp⟩
  · cases r with
    | nil =>
      simp only [List.nil_append, List.cons.injEq] at hr
      rw [← hr.1, hx] at ht; cases ht
    | cons y r =>
      simp only [List.cons_append, List.cons.injEq] at hr
      obtain ⟨rfl, _⟩ := hr
      have := hm x (by rw [hp]; simp)
      rw [hx] at this; cases this

theorem lastBracket_split {pre : List Tok} {k : TT} (h : lastBracket (pre.map Tok.type) = some k) :
    ∃ p t mid, pre = p ++ t :: mid ∧ t.type = k ∧ ∀ y ∈ mid, isBracket y.type = false := by
  induction pre with
  | nil => simp [lastBracket] at h
  | cons a l ih =>
    cases hl : lastBracket (l.map Tok.type) with
    | some k' =>
      have hk : k' = k := by
        unfold lastBracket at h hl
        rw [List.map_cons, List.filter_cons] at h
        split at h
        · rw [List.getLast?_cons, hl] at h
          simpa using h
        · rw [hl] at h; simpa using h
      rw [hk] at hl
      obtain ⟨p, t, mid, h1, h2, h3⟩ := ih hl
      exact ⟨a :: p, t, mid, by simp [h1], h2, h3⟩
    | none =>
      unfold lastBracket at h hl
      rw [List.getLast?_eq_none_iff] at hl
      rw [List.map_cons, List.filter_cons] at h
      split at h
      · rw [hl] at h
        refine ⟨[], a, l, rfl, by simpa using h, fun y hy => ?_⟩
        have := List.filter_eq_nil_iff.1 hl y.type (List.mem_map_of_mem hy)
        simpa using this
      · rw [hl] at h; simp at h

/-! ### The parsed document and its tokens -/

/-- A parsed document with its tokens. -/
structure Doc (u : Uni) (cs : Bool) (void : List Str) (src : Str) (roots : List Node) (ts : List Tok) : Prop where
  parse : parse u cs void src = .ok roots
  tokens : tokens (parserCfg u cs src) (.new 0 .WithinContent) = .ok ts

variable {u : Uni} {cs : Bool} {src : Str} {roots : List Node} {ts : List Tok}

theorem Doc.contiguous (h : Doc u cs void src roots ts) : Contiguous 0 ts src.length := by
  obtain ⟨s2, h1, h2⟩ := tokens_run h.tokens
  obtain ⟨h3, h4, h5, _⟩ := h1.contiguous (by simp [Sc.new])
  have : s2.pos = src.length := by
    simp only [parserCfg] at h2 h5
    omega
  rw [this] at h3
  exact h3

theorem Doc.grammar (h : Doc u cs void src roots ts) {pre post : List Tok} {t : Tok}
    (ht : ts = pre ++ t :: post) : MayFollow (pre.map Tok.type) t.type := by
  obtain ⟨s2, h1, _⟩ := tokens_run h.tokens
  have := h1.grammar (hist := []) (by simp [GInv, Sc.new, lastBracket]) ht
  simpa using this

theorem Doc.textOK (h : Doc u cs void src roots ts) {t : Tok} (ht : t ∈ ts) :
    TextOK src t := by
  obtain ⟨s2, h1, _⟩ := tokens_run h.tokens
  obtain ⟨a, b, hst, hne, rfl⟩ := h1.mem ht
  exact hst.textOK hne

theorem Doc.nonempty (h : Doc u cs void src roots ts) {t : Tok} (ht : t ∈ ts)
    (hk : t.type = .StartTagOpen ∨ t.type = .EndTagOpen ∨ t.type = .AttributeName) : t.offset < t.stop := by
  have hok := h.textOK ht
  unfold TextOK at hok
  rcases Nat.lt_or_ge t.offset t.stop with h1 | h1
  · exact h1
  · have he : Spec.text src t = [] := by unfold Spec.text; exact List.drop_eq_nil_of_le (by simp; omega)
    rcases hk with hk | hk | hk
    · simp [hk, he] at hok
    · simp [hk, he] at hok
    · simp only [hk, he] at hok
      exact absurd rfl hok.1

/-- The nodes are the `<` tokens. -/
theorem Doc.node_tok (h : Doc u cs void src roots ts) {n : Node} (hn : InForest roots n) :
    ∃ pre t post, ts = pre ++ t :: post ∧ t.type = .StartTagOpen ∧ t.offset = n.start := by
  have ht := parse_tags h.parse h.tokens hn
  cases hs : n.startTagEnd with
  | none =>
    rcases ht.cut hs with ⟨x, ⟨pre, t, mid, post, h1, h2, h3, _⟩, _⟩ | ⟨⟨pre, t, mid, h1, h2, h3, _⟩, _⟩
    · exact ⟨pre, t, _, h1, h2, h3⟩
    · exact ⟨pre, t, _, h1, h2, h3⟩
  | some e =>
    obtain ⟨x, ⟨pre, t, mid, post, h1, h2, h3, _⟩, _⟩ := ht.full e hs
    exact ⟨pre, t, _, h1, h2, h3⟩

theorem inForest_sub {l l' : List Node} {n : Node} (h : InForest l n) (hs : ∀ x ∈ l, x ∈ l') : InForest l' n := by
  induction h with
  | root h => exact .root (hs _ h)
  | child _ hc ih => exact .child ih hc

theorem inForest_below {l : List Node} {m n : Node} (hm : InForest l m) (h : InForest m.children n) :
    InForest l n := by
  induction h with
  | root h => exact .child hm h
  | child _ hc ih => exact .child ih hc

mutual
theorem preNode_mem_iff : ∀ (n : Node) {a : Nat}, a ∈ preNode n → ∃ m, (m = n ∨ InForest n.children m) ∧ m.start = a
  | ⟨tag, start, stop, children, e1, e2, cl, attrs⟩, a, h => by
    rw [preNode] at h
    rcases List.mem_cons.1 h with h | h
    · exact ⟨_, .inl rfl, h.symm⟩
    · obtain ⟨m, h1, h2⟩ := preorder_mem_iff children h
      exact ⟨m, .inr h1, h2⟩
theorem preorder_mem_iff : ∀ (l : List Node) {a : Nat}, a ∈ Spec.preorder l → ∃ n, InForest l n ∧ n.start = a
  | [], a, h => by simp [Spec.preorder] at h
  | n :: ns, a, h => by
    rw [Spec.preorder] at h
    rcases List.mem_append.1 h with h | h
    · obtain ⟨m, h1, h2⟩ := preNode_mem_iff n h
      rcases h1 with h1 | h1
      · exact ⟨m, .root (by simp [h1]), h2⟩
      · exact ⟨m, inForest_up (by simp) h1, h2⟩
    · obtain ⟨m, h1, h2⟩ := preorder_mem_iff ns h
      exact ⟨m, inForest_sub h1 (by simp +contextual), h2⟩
end

theorem Doc.tok_node (h : Doc u cs void src roots ts) {t : Tok} (ht : t ∈ ts) (hk : t.type = .StartTagOpen) :
    ∃ n, InForest roots n ∧ n.start = t.offset := by
  obtain ⟨ts', h1, h2⟩ := C13_one_node_per_bracket u cs void src roots h.parse
  rw [h.tokens] at h1; cases h1
  apply preorder_mem_iff
  rw [h2, List.mem_map]
  exact ⟨t, by simp [ht, hk], rfl⟩

/-- The element whose start tag a token belongs to: nothing that starts before the token starts after
the element, and the element does not end before the token. -/
theorem Doc.enclosing (h : Doc u cs void src roots ts) {pre post : List Tok} {t : Tok}
    (hts : ts = pre ++ t :: post) (hb : lastBracket (pre.map Tok.type) = some .StartTagOpen)
    (hnb : isBracket t.type = false) :
    ∃ m, InForest roots m ∧ m.start < t.offset ∧ t.stop ≤ m.startTagEnd.getD m.stop ∧
      (∀ e, m.endTagStart = some e → t.stop ≤ e) ∧
      ∀ n, InForest roots n → n.start < t.stop → n.start ≤ m.start := by
  obtain ⟨p, t0, mid, hp, hk, hmid⟩ := lastBracket_split hb
  have hts0 : ts = p ++ t0 :: (mid ++ t :: post) := by rw [hts, hp]; simp
  have hm0 : t0 ∈ ts := by rw [hts0]; simp
  have n0 := h.nonempty hm0 (.inl hk)
  obtain ⟨m, hm, hs⟩ := h.tok_node hm0 hk
  have hc := h.contiguous
  have hd := parse_done h.parse hm
  have late : ∀ {mid' post' : List Tok} {x : Tok}, mid ++ t :: post = mid' ++ x :: post' →
      isBracket x.type = true → t.stop ≤ x.offset := by
    intro mid' post' x he hx
    obtain ⟨q, rfl⟩ := seg_order he hmid hnb hx
    have hc' := hc
    rw [hts0, he] at hc'
    obtain ⟨_, _, hc', _⟩ := contiguous_split hc'
    obtain ⟨_, _, hc'⟩ := hc'
    rw [List.append_assoc] at hc'
    obtain ⟨_, _, hc', _⟩ := contiguous_split hc'
    obtain ⟨_, _, hc'⟩ := hc'
    exact contiguous_ge hc' (by simp)
  have lt0 : t0.stop ≤ t.offset := by
    have hc' := hc
    rw [hts0] at hc'
    obtain ⟨_, _, hc', _⟩ := contiguous_split hc'
    obtain ⟨_, _, hc'⟩ := hc'
    exact contiguous_ge hc' (by simp)
  have seg : ∀ {x}, StartSeg ts m.start x → t.stop ≤ x.offset ∧ x.offset ≤ x.stop := by
    rintro x ⟨pre', t', mid', post', h1, h2, h3, h4, h5⟩
    have hm1 : t' ∈ ts := by rw [h1]; simp
    obtain ⟨_, _, e⟩ := pos_unique hc hts0 h1 (by omega) n0 (h.nonempty hm1 (.inl h2))
    refine ⟨late e (by rcases h5 with h5 | h5 <;> rw [h5] <;> rfl), ?_⟩
    have hc' := hc
    rw [h1] at hc'
    obtain ⟨_, _, hc', _⟩ := contiguous_split hc'
    obtain ⟨_, _, hc'⟩ := hc'
    obtain ⟨_, _, hc', _⟩ := contiguous_split hc'
    exact hc'.2.1
  have htag := parse_tags h.parse h.tokens hm
  have hle : t.stop ≤ src.length := (contiguous_le hc).2 t (by rw [hts]; simp)
  have hend : t.stop ≤ m.startTagEnd.getD m.stop := by
    cases hse : m.startTagEnd with
    | none =>
      rcases htag.cut hse with ⟨x, h1, _, _, h4⟩ | ⟨_, h2⟩
      · have := seg h1
        simp; omega
      · simp; omega
    | some e =>
      obtain ⟨x, h1, _, h3, _⟩ := htag.full e hse
      have := seg h1
      simp; omega
  refine ⟨m, hm, by omega, hend, fun e he => ?_, fun n hn hlt => ?_⟩
  · obtain ⟨_, _, h3, _⟩ := hd.ets e he
    cases hse : m.startTagEnd with
    | none => exact absurd hse h3
    | some e' =>
      rw [hse] at hend
      simp only [Option.getD_some] at hend
      obtain ⟨_, _, h4, _⟩ := hd.ste e' hse
      have : e' ≤ contentEnd m := h4.le
      simp only [contentEnd, he, Option.getD_some] at this
      omega
  · obtain ⟨p', t', q', h1, h2, h3⟩ := h.node_tok hn
    have hm1 : t' ∈ ts := by rw [h1]; simp
    rw [hs, ← h3]
    rcases Nat.lt_or_ge t0.offset t'.offset with hlt' | hge
    · exfalso
      have hn1 := h.nonempty hm1 (.inl h2)
      have hq := before_of_lt hc hts0 hm1 (by omega) (by rintro rfl; omega)
      rcases List.mem_append.1 hq with hq | hq
      · have := hmid t' hq
        rw [h2] at this; cases this
      · rcases List.mem_cons.1 hq with rfl | hq
        · rw [h2] at hnb; cases hnb
        · have hc' := hc
          rw [hts] at hc'
          obtain ⟨_, _, hc', _⟩ := contiguous_split hc'
          obtain ⟨_, _, hc'⟩ := hc'
          have := contiguous_ge hc' hq
          omega
    · exact hge

theorem getStr_one {s : Str} {a b : Nat} : getStr s a (a + 1) = some [b] ↔
    s[a]? = some b ∧ isBoundary s a = true ∧ isBoundary s (a + 1) = true := by
  unfold getStr sliceStr
  constructor
  · intro h
    split at h
    · rename_i hc
      simp only [Except.toOption, Option.some.injEq] at h
      simp only [Bool.and_eq_true, decide_eq_true_eq] at hc
      refine ⟨?_, hc.1.2, hc.2⟩
      have := congrArg (·[0]?) h
      simpa [List.getElem?_take, List.getElem?_drop] using this
    · simp [Except.toOption] at h
  · rintro ⟨h1, h2, h3⟩
    rw [List.getElem?_eq_some_iff] at h1
    obtain ⟨hl, h1⟩ := h1
    rw [if_pos (by simp [h2, h3]; omega)]
    simp only [Except.toOption, Option.some.injEq]
    rw [List.drop_take, List.drop_eq_getElem_cons hl]
    simp [h1]

theorem Doc.inner_le (h : Doc u cs void src roots ts) {n m : Node} (hn : InForest roots n)
    (hm : InForest n.children m) : m.stop ≤ contentEnd n := by
  have hd := parse_done h.parse hn
  cases hs : n.startTagEnd with
  | none =>
    have := (hd.noste hs).1
    rw [this] at hm
    obtain ⟨_, hx, _⟩ := inForest_cases hm
    cases hx
  | some e =>
    obtain ⟨_, _, h3, _⟩ := hd.ste e hs
    obtain ⟨x, hx, rfl | hx'⟩ := inForest_cases hm
    · exact (h3.mem hx).2.2
    · have := (h3.mem hx).2.2
      have := (inForest_inside (n := x) (deep_forest (parse_nest h.parse).deep (.child hn hx)) hx').2.2
      omega

theorem Doc.inner_gt (h : Doc u cs void src roots ts) {n m : Node} (hn : InForest roots n)
    (hm : InForest n.children m) : n.startTagEnd.getD n.stop ≤ m.start ∧ n.start < m.start := by
  have hd := parse_done h.parse hn
  cases hs : n.startTagEnd with
  | none =>
    have := (hd.noste hs).1
    rw [this] at hm
    obtain ⟨_, hx, _⟩ := inForest_cases hm
    cases hx
  | some e =>
    obtain ⟨h1, _, h3, _⟩ := hd.ste e hs
    obtain ⟨x, hx, rfl | hx'⟩ := inForest_cases hm
    · have := (h3.mem hx).1
      simp; omega
    · have := (h3.mem hx).1
      have := (inForest_inside (n := x) (deep_forest (parse_nest h.parse).deep (.child hn hx)) hx').1
      simp; omega

theorem chain_below {l ps : List Node} {n p : Node} (h : Chain l ps n) (hp : p ∈ ps) : InForest p.children n := by
  induction ps generalizing l with
  | nil => cases hp
  | cons q ps ih =>
    obtain ⟨h1, h2⟩ := h
    rcases List.mem_cons.1 hp with rfl | hp
    · exact (chain_inForest h2).1
    · exact ih h2 hp

/-- The tokens from an element on. -/
theorem Doc.from_node (h : Doc u cs void src roots ts) {n : Node} (hn : InForest roots n) :
    ∃ pre t post, ts = pre ++ t :: post ∧ t.type = .StartTagOpen ∧ t.offset = n.start ∧
      Stream (parserCfg u cs src) (.new n.start .WithinContent) (t :: post) ∧
      (t :: post).length < 2 * src.length + 2 := by
  obtain ⟨pre, t, post, h1, h2, h3⟩ := h.node_tok hn
  refine ⟨pre, t, post, h1, h2, h3, h3 ▸ (restart h.tokens h1 h2).1, ?_⟩
  obtain ⟨s2, h4, _⟩ := tokens_run h.tokens
  have h5 := h4.length_mu
  have h6 := mu_le (parserCfg u cs src) (.new 0 .WithinContent)
  rw [h1] at h5
  simp only [List.length_append] at h5
  simp only [Sc.new, parserCfg] at *
  omega

/-- What is offered behind `=`: no tag may be cut short between the element that is found and the cursor. -/
theorem quote_eq_from {e : CompEnv} {d : TextDoc} {position : Pos}
    (h : Doc e.uni e.caseSensitive void d.text roots ts)
    (hc : ∀ n ps, findNodeBefore roots (d.offsetAt position) = some (n, ps) →
      ∀ x ∈ ts, n.start < x.stop → x.stop < d.offsetAt position → x.offset < x.stop) :
    doQuoteComplete e d position roots =
      .ok (if ts.any (fun t => t.type = .AttributeName ∧ t.stop + 1 = d.offsetAt position ∧
        d.text[t.stop]? = some 61 ∧ noValue d.text (d.offsetAt position) = true) then e.quotes.pair else none) := by
  unfold doQuoteComplete
  generalize d.offsetAt position = o at *
  simp only
  by_cases h0 : o = 0
  · rw [if_pos h0, h0]
    have : ts.any (fun t => t.type = .AttributeName ∧ t.stop + 1 = 0 ∧
        d.text[t.stop]? = some 61 ∧ noValue d.text 0 = true) = false := any_false (by simp)
    rw [this]; rfl
  rw [if_neg h0]
  obtain ⟨o, rfl⟩ : ∃ p, o = p + 1 := ⟨o - 1, by omega⟩
  simp only [Nat.add_sub_cancel]
  by_cases hg : getStr d.text o (o + 1) = some b!"="
  · rw [if_neg (by simp [hg])]
    obtain ⟨g1, g2, g3⟩ := getStr_one.1 hg
    cases hq : e.quotes.pair with
    | none => simp
    | some v =>
      simp only
      have hcg := h.contiguous
      -- the tokens from a node that is found
      have run : ∀ n ps, findNodeBefore roots (o + 1) = some (n, ps) → InForest roots n → n.start < o + 1 →
          ∃ s, scan (e.cfg d false) (.new n.start .WithinContent) = .ok s ∧
            quoteLoop (e.cfg d false) (o + 1) v (2 * d.text.length + 2) s =
            .ok (if ts.any (fun t => t.type = .AttributeName ∧ t.stop + 1 = o + 1 ∧
              d.text[t.stop]? = some 61 ∧ noValue d.text (o + 1) = true) then some v else none) := by
        intro n ps hf hn hlt
        obtain ⟨pre, t, post, h1, h2, h3, h4, h5⟩ := h.from_node hn
        obtain ⟨s, h6, h7⟩ := quoteLoop_eq (o := o + 1) (v := v) (by omega) h4
          (fun x hx => hc n ps hf x (by rw [h1]; exact List.mem_append_right _ hx) (by
            have hcg := hcg
            have h0 := h.nonempty (t := t) (by rw [h1]; simp) (.inl h2)
            rw [h1] at hcg
            obtain ⟨m, _, ⟨_, _, hcg⟩, _⟩ := contiguous_split hcg
            rcases List.mem_cons.1 hx with rfl | hx
            · omega
            · obtain ⟨a, b, rfl⟩ := List.append_of_mem hx
              obtain ⟨k, _, hcg, _⟩ := contiguous_split hcg
              have := hcg.1
              have := hcg.2.1
              omega)) h5
        refine ⟨s, h6, h7.trans ?_⟩
        have he : (t :: post).any (fun t => t.type = .AttributeName ∧ t.stop + 1 = o + 1 ∧
              d.text[t.stop]? = some 61 ∧ noValue d.text (o + 1) = true) =
            ts.any (fun t => t.type = .AttributeName ∧ t.stop + 1 = o + 1 ∧
              d.text[t.stop]? = some 61 ∧ noValue d.text (o + 1) = true) := by
          rw [Bool.eq_iff_iff, List.any_eq_true, List.any_eq_true]
          constructor
          · rintro ⟨x, hx, hp⟩
            exact ⟨x, by rw [h1]; exact List.mem_append_right _ hx, hp⟩
          · rintro ⟨x, hx, hp⟩
            refine ⟨x, ?_, hp⟩
            simp only [decide_eq_true_eq] at hp
            have hne : t.offset ≠ x.stop := by
              intro he
              have := (parse_done h.parse hn).opn
              rw [← h3, he] at this
              have h8 : d.text[x.stop]? = some 60 := this
              rw [hp.2.2.1] at h8; cases h8
            exact List.mem_cons_of_mem _ (before_of_lt hcg h1 hx (by omega)
              (by rintro rfl; rw [h2] at hp; cases hp.1))
        show Except.ok (if (t :: post).any (fun t => t.type = .AttributeName ∧ t.stop + 1 = o + 1 ∧
              d.text[t.stop]? = some 61 ∧ noValue d.text (o + 1) = true) then some v else none) = _
        rw [he]
      have found : ts.any (fun t => t.type = .AttributeName ∧ t.stop + 1 = o + 1 ∧
          d.text[t.stop]? = some 61 ∧ noValue d.text (o + 1) = true) = true →
          ∃ n ps, findNodeBefore roots (o + 1) = some (n, ps) ∧ beforeEnd n (o + 1) = true := by
        intro ha
        obtain ⟨t, ht, hp⟩ := List.any_eq_true.1 ha
        simp only [decide_eq_true_eq] at hp
        obtain ⟨p1, p2, p3, p4⟩ := hp
        obtain ⟨pre, post, hts⟩ := List.append_of_mem ht
        have hgr := h.grammar hts
        rw [p1] at hgr
        obtain ⟨m, hm, m1, m2, m3, m4⟩ := h.enclosing hts hgr (by rw [p1]; rfl)
        have hne := h.nonempty ht (.inr (.inr p1))
        cases hf : findNodeBefore roots (o + 1) with
        | none =>
          have := (C23_none_iff _ _ _ _ _ _ h.parse).1 hf m hm
          omega
        | some x =>
          obtain ⟨n, ps⟩ := x
          refine ⟨n, ps, rfl, ?_⟩
          obtain ⟨c1, c2, c3, _⟩ := C23_last_node_before _ _ _ _ _ _ _ _ h.parse hf
          have hn := (chain_inForest c2).1
          have hdn := parse_done h.parse hn
          have hns : n.start ≠ o := by
            intro he
            have := hdn.opn
            rw [he] at this
            have h8 : d.text[o]? = some 60 := this
            rw [g1] at h8; cases h8
          have hle := m4 n hn (by omega)
          unfold beforeEnd
          rw [Bool.and_eq_true, decide_eq_true_eq, Bool.not_eq_true', Bool.eq_false_iff]
          refine ⟨c1, fun hx => ?_⟩
          obtain ⟨es, he, hes⟩ := (Option.any_eq_true ..).1 hx
          simp only [decide_eq_true_eq] at hes
          have at60 : d.text[es]? = some 60 := by
            obtain ⟨_, ⟨r, hr⟩, _⟩ := hdn.ets es he
            have := congrArg (·[0]?) hr
            simpa [List.getElem?_drop, parserCfg] using this
          have n1 : es ≠ o := by
            rintro rfl
            rw [g1] at at60; cases at60
          have n2 : es ≠ o + 1 := by
            rintro rfl
            unfold noValue at p4
            rw [at60] at p4
            cases p4
          rcases c3 m hm (by omega) with rfl | hps | hst | hin
          · have := m3 es he
            omega
          · have := h.inner_gt hm (chain_below c2 hps)
            omega
          · have := (parse_done h.parse hm).lt
            omega
          · have h9 := h.inner_le hn hin
            rw [contentEnd, he] at h9
            simp only [Option.getD_some] at h9
            have : m.startTagEnd.getD m.stop ≤ m.stop := by
              cases hse : m.startTagEnd with
              | none => simp
              | some e' =>
                obtain ⟨_, _, h4, h5⟩ := (parse_done h.parse hm).ste e' hse
                have := h4.le
                simp; omega
            omega
      cases hf : findNodeBefore roots (o + 1) with
      | none =>
        simp only
        split
        · rename_i ha
          obtain ⟨_, _, h1, _⟩ := found ha
          rw [hf] at h1; cases h1
        · rfl
      | some x =>
        obtain ⟨n, ps⟩ := x
        simp only
        obtain ⟨c1, c2, _⟩ := C23_last_node_before _ _ _ _ _ _ _ _ h.parse hf
        split
        · obtain ⟨s, h1, h2⟩ := run n ps hf (chain_inForest c2).1 c1
          rw [h1]
          exact h2
        · rename_i hb
          split
          · rename_i ha
            obtain ⟨_, _, h1, h2⟩ := found ha
            rw [hf] at h1; cases h1
            exact absurd h2 hb
          · rfl
  · rw [if_pos hg]
    have : ts.any (fun t => t.type = .AttributeName ∧ t.stop + 1 = o + 1 ∧
        d.text[t.stop]? = some 61 ∧ noValue d.text (o + 1) = true) = false := by
      refine any_false fun t ht => ?_
      rw [decide_eq_false_iff_not]
      rintro ⟨_, h2, h3, h4⟩
      have e : t.stop = o := by omega
      rw [e] at h3
      refine hg (getStr_one.2 ⟨h3, isBoundary_of_get h3 (by decide), ?_⟩)
      unfold noValue at h4
      cases hb : d.text[o + 1]? with
      | none =>
        rw [List.getElem?_eq_none_iff] at hb
        have : o < d.text.length := by
          rw [List.getElem?_eq_some_iff] at h3
          exact h3.1
        have : o + 1 = d.text.length := by omega
        rw [this]
        simp [isBoundary]
      | some b =>
        refine isBoundary_of_get hb ?_
        rw [hb] at h4
        have : b < 128 := by
          simp only [isWs, Bool.or_eq_true, beq_iff_eq] at h4
          omega
        simp [isCont]; omega
    rw [this]; rfl

/-- What is offered behind `=`. -/
theorem quote_eq {e : CompEnv} {d : TextDoc} {position : Pos}
    (h : Doc e.uni e.caseSensitive void d.text roots ts) (hc : NoCut ts (d.offsetAt position)) :
    doQuoteComplete e d position roots =
      .ok (if ts.any (fun t => t.type = .AttributeName ∧ t.stop + 1 = d.offsetAt position ∧
        d.text[t.stop]? = some 61 ∧ noValue d.text (d.offsetAt position) = true) then e.quotes.pair else none) :=
  quote_eq_from h fun _ _ _ x hx _ => hc x hx

end Html
