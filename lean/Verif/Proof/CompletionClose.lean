import Verif.Proof.CompletionTags

/-! # Tag completion -/

namespace Html
open Spec Props

variable {void : List Str} {u : Uni} {cs : Bool} {src : Str} {roots : List Node} {ts : List Tok}

/-! ### Nodes that end together -/

theorem siblings_last {lo hi : Nat} : ∀ {l : List Node} {d : Node}, Siblings lo l hi → d ∈ l → d.stop = hi →
    l.getLast? = some d
  | [], _, _, hd, _ => by cases hd
  | [a], d, _, hd, _ => by simp_all
  | a :: b :: l, d, h, hd, he => by
    obtain ⟨_, _, h3⟩ := h
    rcases List.mem_cons.1 hd with rfl | hd
    · obtain ⟨h4, h5, h6⟩ := h3
      have := h6.le
      omega
    · rw [List.getLast?_cons_cons]
      exact siblings_last h3 hd he

theorem Doc.ends_last (h : Doc u cs void src roots ts) {n m : Node} (hn : InForest roots n)
    (hm : InForest n.children m) (he : m.stop = n.stop) : EndsWithLastChild n := by
  obtain ⟨x, hx, hxm⟩ := inForest_cases hm
  have hsib := (deep_forest (parse_nest h.parse).deep hn).here.2
  have hs : x.stop = n.stop := by
    rcases hxm with rfl | hxm
    · exact he
    · have h1 := (hsib.mem hx).2.2
      have h2 := (inForest_inside (n := x) (deep_forest (parse_nest h.parse).deep (.child hn hx)) hxm).2.2
      omega
  exact ⟨x, siblings_last hsib hx hs, hs⟩

/-- The node whose start tag is complete at an offset is found in front of it. -/
theorem Doc.locate (h : Doc u cs void src roots ts) {n : Node} {o : Nat} (hn : InForest roots n)
    (h1 : n.start < o) (h2 : o ≤ n.stop) (h3 : ∀ m, InForest n.children m → o ≤ m.start) :
    ∃ ps, findNodeBefore roots o = some (n, ps) := by
  cases hf : findNodeBefore roots o with
  | none =>
    have := (C23_none_iff _ _ _ _ _ _ h.parse).1 hf n hn
    omega
  | some x =>
    obtain ⟨k, ps⟩ := x
    refine ⟨ps, ?_⟩
    obtain ⟨c1, c2, c3, c4, _⟩ := C23_last_node_before _ _ _ _ _ _ _ _ h.parse hf
    rcases c3 n hn h1 with rfl | hp | hs | hi
    · rfl
    · have := h3 k (chain_below c2 hp)
      omega
    · omega
    · exfalso
      rcases c4 with ⟨c5, c6⟩ | ⟨c5, c6⟩
      · obtain ⟨x, hx, hxm⟩ := inForest_cases hi
        have h4 := c6 x hx
        rcases hxm with rfl | hxm
        · omega
        · have := (h.inner_gt (.child (chain_inForest c2).1 hx) hxm).2
          omega
      · have hk := (chain_inForest c2).1
        have h4 := (inForest_inside (deep_forest (parse_nest h.parse).deep hk) hi).2.2
        exact c6 (h.ends_last hk hi (by omega))

/-! ### Behind `>` -/

theorem Doc.close_node (h : Doc u cs void src roots ts) {x : Tok} (hx : x ∈ ts) (ht : x.type = .StartTagClose)
    (hl : x.offset < x.stop) : ∃ m, InForest roots m ∧ m.startTagEnd = some x.stop ∧
      (m.closed = true → m.endTagStart = none → ∃ t ∈ void, m.tag = some t) := by
  obtain ⟨pre, post, hts⟩ := List.append_of_mem hx
  have hg := h.grammar hts
  rw [ht] at hg
  obtain ⟨p, t0, mid, hp, hk, hmid⟩ := lastBracket_split hg
  have hts0 : ts = p ++ t0 :: (mid ++ x :: post) := by rw [hts, hp]; simp
  have hm0 : t0 ∈ ts := by rw [hts0]; simp
  obtain ⟨m, hm, hs⟩ := h.tok_node hm0 hk
  refine ⟨m, hm, ?_⟩
  have hc := h.contiguous
  have htag := parse_tags h.parse h.tokens hm
  have same : ∀ {mid' post' : List Tok} {x' : Tok}, mid ++ x :: post = mid' ++ x' :: post' →
      (∀ y ∈ mid', isBracket y.type = false) → isBracket x'.type = true → x' = x := by
    intro mid' post' x' he hm' hb
    have hb' : isBracket x.type = true := by rw [ht]; rfl
    rcases List.append_eq_append_iff.1 he with ⟨r, hp, hr⟩ | ⟨r, hp, hr⟩
    · cases r with
      | nil => simp at hr; exact hr.1.symm
      | cons y r =>
        simp only [List.cons_append, List.cons.injEq] at hr
        have := hm' x (by rw [hp, hr.1]; simp)
        rw [hb'] at this; cases this
    · cases r with
      | nil => simp at hr; exact hr.1
      | cons y r =>
        simp only [List.cons_append, List.cons.injEq] at hr
        have := hmid x' (by rw [hp, hr.1]; simp)
        rw [hb] at this; cases this
  have seg : ∀ {x'}, StartSeg ts m.start x' → x' = x := by
    rintro x' ⟨pre', t', mid', post', h1, h2, h3, h4, h5⟩
    have hm1 : t' ∈ ts := by rw [h1]; simp
    obtain ⟨_, _, e⟩ := pos_unique hc hts0 h1 (by omega) (h.nonempty hm0 (.inl hk)) (h.nonempty hm1 (.inl h2))
    exact same e h4 (by rcases h5 with h5 | h5 <;> rw [h5] <;> rfl)
  cases hse : m.startTagEnd with
  | none =>
    exfalso
    rcases htag.cut hse with ⟨x', h1, _, h3, _⟩ | ⟨⟨pre', t', mid', h1, h2, h3, h4⟩, _⟩
    · rw [seg h1] at h3; exact h3 hl
    · have hm1 : t' ∈ ts := by rw [h1]; simp
      obtain ⟨_, _, e⟩ := pos_unique hc hts0 h1 (by omega) (h.nonempty hm0 (.inl hk)) (h.nonempty hm1 (.inl h2))
      have := h4 x (by rw [← e]; simp)
      rw [ht] at this; cases this
  | some e =>
    obtain ⟨x', h1, _, h3, _, h5⟩ := htag.full e hse
    have := seg h1
    subst this
    exact ⟨by rw [h3], h5 ht⟩

/-- Tokens from the bracket of an element on end behind its start. -/
theorem Doc.stop_behind (h : Doc u cs void src roots ts) {pre post : List Tok} {t x : Tok} (hts : ts = pre ++ t :: post)
    (ht : t.type = .StartTagOpen) (hx : x ∈ t :: post) : t.offset < x.stop := by
  have hcg := h.contiguous
  have h0 := h.nonempty (t := t) (by rw [hts]; simp) (.inl ht)
  rw [hts] at hcg
  obtain ⟨m, _, ⟨_, _, hcg⟩, _⟩ := contiguous_split hcg
  rcases List.mem_cons.1 hx with rfl | hx
  · exact h0
  · obtain ⟨a, b, rfl⟩ := List.append_of_mem hx
    obtain ⟨k, _, hcg, _⟩ := contiguous_split hcg
    have := hcg.1
    have := hcg.2.1
    omega

/-- What is inserted behind `>`: no tag may be cut short between the element that is found and the cursor. -/
theorem start_eq_from {e : CompEnv} {d : TextDoc} {o : Nat} (h : Doc e.uni e.caseSensitive e.void d.text roots ts)
    (hc : ∀ n ps, findNodeBefore roots o = some (n, ps) →
      ∀ x ∈ ts, n.start < x.stop → x.stop < o → x.offset < x.stop) : ∃ r, completeStart e d o roots = .ok r ∧ ∀ v, r = some v ↔
      ∃ n t, InForest roots n ∧ n.startTagEnd = some o ∧ n.tag = some t ∧ t ∉ e.void ∧
        (n.closed = false ∨ ∃ es, n.endTagStart = some es ∧ o < es) ∧ v = b!"$0</" ++ t ++ b!">" := by
  have hcg := h.contiguous
  have locate : ∀ {n}, InForest roots n → n.startTagEnd = some o → n.start < o ∧
      ∃ ps, findNodeBefore roots o = some (n, ps) := by
    intro n hn hs
    obtain ⟨h1, h2, _⟩ := (C14_offsets_point_at_brackets _ _ _ _ _ n h.parse hn).2.1 o hs
    refine ⟨h1, h.locate hn h1 h2 fun m hm => ?_⟩
    have := (h.inner_gt hn hm).1
    rwa [hs] at this
  unfold completeStart
  cases hf : findNodeBefore roots o with
  | none =>
    refine ⟨none, rfl, fun v => ⟨by simp, ?_⟩⟩
    rintro ⟨n, t, h1, h2, _⟩
    obtain ⟨_, ps, h3⟩ := locate h1 h2
    rw [hf] at h3; cases h3
  | some x =>
    obtain ⟨k, ps⟩ := x
    obtain ⟨c1, c2, c3, c4, _⟩ := C23_last_node_before _ _ _ _ _ _ _ _ h.parse hf
    have hk := (chain_inForest c2).1
    have only : ∀ {n}, InForest roots n → n.startTagEnd = some o → n = k := by
      intro n hn hs
      obtain ⟨_, ps, h3⟩ := locate hn hs
      rw [hf] at h3; cases h3; rfl
    simp only
    cases htag : k.tag with
    | none =>
      refine ⟨none, rfl, fun v => ⟨by simp, ?_⟩⟩
      rintro ⟨n, t, h1, h2, h3, _⟩
      rw [only h1 h2, htag] at h3; cases h3
    | some t =>
      simp only
      by_cases hb : (!(isVoidElement t e.void) && beforeEnd k o) = true
      · rw [if_pos hb]
        obtain ⟨pre, t0, post, h1, h2, h3, h4, h5⟩ := h.from_node hk
        obtain ⟨s, h6, h7⟩ := endsAt_eq (k := .StartTagClose) (o := o) (by simp) h4
          (fun x hx => hc k ps hf x (by rw [h1]; exact List.mem_append_right _ hx)
            (by rw [← h3]; exact h.stop_behind h1 h2 hx)) h5
        have h6 : scan (e.cfg d false) (.new k.start .WithinContent) = .ok s := h6
        have h7 : endsAt (e.cfg d false) .StartTagClose o (2 * d.text.length + 2) s = _ := h7
        rw [h6]
        simp only [bind, Except.bind]
        rw [h7]
        refine ⟨_, rfl, fun v => ?_⟩
        simp only [Bool.and_eq_true, Bool.not_eq_true'] at hb
        obtain ⟨hv, hb⟩ := hb
        have hv : t ∉ e.void := by
          intro hv
          have : isVoidElement t e.void = true := by simp [isVoidElement, hv]
          simp_all
        unfold beforeEnd at hb
        simp only [Bool.and_eq_true, Bool.not_eq_true', decide_eq_true_eq] at hb
        constructor
        · intro hr
          split at hr
          · rename_i ha
            obtain ⟨x, hx, hp⟩ := List.any_eq_true.1 ha
            simp only [decide_eq_true_eq] at hp
            obtain ⟨p1, p2, p3⟩ := hp
            have hxm : x ∈ ts := by rw [h1]; exact List.mem_append_right _ hx
            obtain ⟨m, hm, m1, m2⟩ := h.close_node hxm p1 p3
            rw [p2] at m1
            have e1 := only hm m1
            subst e1
            refine ⟨m, t, hm, m1, htag, hv, ?_, by simpa using hr.symm⟩
            cases hes : m.endTagStart with
            | none =>
              left
              cases hcl : m.closed with
              | false => rfl
              | true =>
                obtain ⟨t', h8, h9⟩ := m2 hcl hes
                rw [htag] at h9; cases h9
                exact absurd h8 hv
            | some es =>
              right
              refine ⟨es, rfl, ?_⟩
              have := hb.2
              rw [hes] at this
              simpa using this
          · cases hr
        · rintro ⟨n, t', n1, n2, n3, n4, n5, rfl⟩
          have e1 := only n1 n2
          subst e1
          rw [htag] at n3; cases n3
          have ha : (t0 :: post).any (fun t => t.type = .StartTagClose ∧ t.stop = o ∧ t.offset < t.stop) = true := by
            obtain ⟨x, ⟨pre', t', mid', post', s1, s2, s3, s4, s5⟩, x2, x3, x4, x5⟩ :=
              (parse_tags h.parse h.tokens n1).full o n2
            have hxm : x ∈ ts := by rw [s1]; simp
            refine List.any_eq_true.2 ⟨x, ?_, ?_⟩
            · have hne : x ≠ t0 := by
                rintro rfl
                rw [h2] at s5; simp at s5
              exact List.mem_cons_of_mem _ (before_of_lt hcg h1 hxm (by omega) hne)
            · simp only [decide_eq_true_eq]
              refine ⟨?_, x3, x2⟩
              rcases s5 with s5 | s5
              · exact s5
              · obtain ⟨y1, y2⟩ := x4 s5
                rcases n5 with n5 | ⟨_, n5, _⟩
                · rw [y1] at n5; cases n5
                · rw [y2] at n5; cases n5
          rw [if_pos ha]
      · rw [if_neg hb]
        refine ⟨none, rfl, fun v => ⟨by simp, ?_⟩⟩
        rintro ⟨n, t', n1, n2, n3, n4, n5, _⟩
        exfalso
        have e1 := only n1 n2
        subst e1
        rw [htag] at n3; cases n3
        apply hb
        have hv : isVoidElement t e.void = false := by
          unfold isVoidElement
          simpa using n4
        rw [hv]
        unfold beforeEnd
        simp only [Bool.not_false, Bool.true_and, Bool.and_eq_true, decide_eq_true_eq, Bool.not_eq_true']
        refine ⟨c1, ?_⟩
        rcases n5 with n5 | ⟨es, n5, n6⟩
        · cases hes : n.endTagStart with
          | none => rfl
          | some es =>
            have := ((parse_done h.parse n1).ets es hes).1
            rw [n5] at this; cases this
        · rw [n5]; simp; omega

/-- What is inserted behind `>`. -/
theorem start_eq {e : CompEnv} {d : TextDoc} {o : Nat} (h : Doc e.uni e.caseSensitive e.void d.text roots ts)
    (hc : NoCut ts o) : ∃ r, completeStart e d o roots = .ok r ∧ ∀ v, r = some v ↔
      ∃ n t, InForest roots n ∧ n.startTagEnd = some o ∧ n.tag = some t ∧ t ∉ e.void ∧
        (n.closed = false ∨ ∃ es, n.endTagStart = some es ∧ o < es) ∧ v = b!"$0</" ++ t ++ b!">" :=
  start_eq_from h fun _ _ _ x hx _ => hc x hx

/-- Behind the start tag of an element that is not closed its end tag is inserted, in every document. -/
theorem start_always {e : CompEnv} {d : TextDoc} {o : Nat} (h : Doc e.uni e.caseSensitive e.void d.text roots ts)
    {n : Node} {t : Str} (hn : InForest roots n) (hs : n.startTagEnd = some o) (htag : n.tag = some t) (hv : t ∉ e.void)
    (hu : n.closed = false ∨ ∃ es, n.endTagStart = some es ∧ o < es) :
    completeStart e d o roots = .ok (some (b!"$0</" ++ t ++ b!">")) := by
  have hl : ∃ ps, findNodeBefore roots o = some (n, ps) := by
    obtain ⟨h1, h2, _⟩ := (C14_offsets_point_at_brackets _ _ _ _ _ n h.parse hn).2.1 o hs
    refine h.locate hn h1 h2 fun m hm => ?_
    have := (h.inner_gt hn hm).1
    rwa [hs] at this
  obtain ⟨r, h1, h2⟩ := start_eq_from (o := o) h fun m ps hf x hx hlt hxo => by
    obtain ⟨ps', hl⟩ := hl
    rw [hf] at hl
    cases hl
    obtain ⟨y, ⟨pre, t0, mid, post, s1, s2, s3, s4, s5⟩, y2, y3, _⟩ := (parse_tags h.parse h.tokens hn).full o hs
    have hcg := h.contiguous
    have hin : x = t0 ∨ x ∈ mid := by
      rw [s1] at hx
      rcases List.mem_append.1 hx with hx | hx
      · exfalso
        rw [s1] at hcg
        obtain ⟨q, hc1, hcg, _⟩ := contiguous_split hcg
        have := (contiguous_le hc1).2 x hx
        have := hcg.1
        omega
      · rcases List.mem_cons.1 hx with rfl | hx
        · exact .inl rfl
        · rcases List.mem_append.1 hx with hx | hx
          · exact .inr hx
          · exfalso
            rw [s1, show pre ++ t0 :: (mid ++ y :: post) = (pre ++ t0 :: mid) ++ y :: post by simp] at hcg
            obtain ⟨q, _, hcg, _⟩ := contiguous_split hcg
            rcases List.mem_cons.1 hx with rfl | hx
            · omega
            · obtain ⟨a, b, rfl⟩ := List.append_of_mem hx
              obtain ⟨k, _, hcg', _⟩ := contiguous_split hcg.2.2
              have := contiguous_ge hcg.2.2 hx
              have := hcg'.1
              have := hcg'.2.1
              omega
    rcases hin with rfl | hin
    · exact h.nonempty hx (.inl s2)
    · have := s4 x hin
      rcases C03_only_pseudo_close_empty _ _ _ h.tokens x hx with h1 | ⟨_, h1 | h1, _⟩
      · exact h1
      · rw [h1] at this; cases this
      · rw [h1] at this; cases this
  rw [h1, (h2 _).2 ⟨n, t, hn, hs, htag, hv, hu, rfl⟩]

/-- Between a start tag and the end tag of the same element nothing is inserted, in every document. -/
theorem start_never {e : CompEnv} {d : TextDoc} {o : Nat} (h : Doc e.uni e.caseSensitive e.void d.text roots ts)
    {n : Node} (hn : InForest roots n) (hs : n.startTagEnd = some o) (he : n.endTagStart = some o) :
    completeStart e d o roots = .ok none := by
  obtain ⟨ps, hl⟩ : ∃ ps, findNodeBefore roots o = some (n, ps) := by
    obtain ⟨h1, h2, _⟩ := (C14_offsets_point_at_brackets _ _ _ _ _ n h.parse hn).2.1 o hs
    refine h.locate hn h1 h2 fun m hm => ?_
    have := (h.inner_gt hn hm).1
    rwa [hs] at this
  unfold completeStart
  rw [hl]
  have hb : beforeEnd n o = false := by
    unfold beforeEnd
    rw [he]
    simp
  dsimp only
  cases n.tag with
  | none => rfl
  | some t =>
    dsimp only
    rw [hb, Bool.and_false, if_neg (by simp)]

/-! ### Behind `</` -/

theorem Doc.split (h : Doc u cs void src roots ts) {pre post : List Tok} {t : Tok} (ht : ts = pre ++ t :: post) :
    ∃ s0 s1 s2, Step (parserCfg u cs src) s0 s1 ∧ s1.tokenType ≠ .EOS ∧ s1.tok = t ∧
      Run (parserCfg u cs src) s1 post s2 := by
  obtain ⟨s2, h1, _⟩ := tokens_run h.tokens
  rw [ht] at h1
  obtain ⟨s0, _, h2⟩ := h1.split
  cases h2 with
  | cons h3 h4 h5 => exact ⟨s0, _, s2, scan_step h3, h4, rfl, h5⟩

/-- Something belongs to an end tag besides the `</`. -/
theorem Doc.end_wide (h : Doc u cs void src roots ts) {n : Node} {e : Nat} (hn : InForest roots n)
    (he : n.endTagStart = some e) : e + 2 < n.stop := by
  obtain ⟨x, ⟨pre, t, mid, post, s1, s2, s3, s4, s5⟩, hx⟩ := (parse_tags h.parse h.tokens hn).ends e he
  obtain ⟨q0, q1, q2, h1, h2, h3, h4⟩ := h.split s1
  have hst : q1.state = .AfterOpeningEndTag := ((h1.endFacts h2).enter (by
    rw [← s2, ← h3]; rfl)).1
  have hlen : t.stop = e + 2 := by
    have hm : t ∈ ts := by rw [s1]; simp
    have hok := h.textOK hm
    unfold TextOK at hok
    rw [s2] at hok
    have hle := (contiguous_le h.contiguous).2 t hm
    have := congrArg List.length hok
    simp [Spec.text] at this
    omega
  have hp : q1.pos = e + 2 := by rw [← hlen, ← h3]; rfl
  -- the token behind `</` is not empty
  have adv : ∀ {l : List Tok} {y : Tok}, Run (parserCfg u cs src) q1 (y :: l) q2 → e + 2 < y.stop := by
    intro l y hr
    cases hr with
    | @cons _ s' _ _ hs hne hr =>
      have hstep := scan_step hs
      show e + 2 < s'.pos
      rw [← hp]
      cases hstep with
      | eos h => exact absurd rfl hne
      | _ => simp_all [fin, adv]
  cases mid with
  | nil =>
    have := adv h4
    omega
  | cons y mid =>
    have h5 := adv h4
    have hcg := h.contiguous
    rw [s1] at hcg
    obtain ⟨_, _, hcg, _⟩ := contiguous_split hcg
    obtain ⟨_, _, hcg⟩ := hcg
    obtain ⟨_, _, hcg⟩ := hcg
    have := (contiguous_ge hcg (t := x) (by simp))
    obtain ⟨_, _, hcg, _⟩ := contiguous_split hcg
    have := hcg.2.1
    omega

theorem left_of_child (h : Doc u cs void src roots ts) {n m : Node} (hn : InForest roots n)
    (hm : m ∈ n.children) (he : n.endTagStart = none) : LeftOpen n := by
  have hd := parse_done h.parse hn
  constructor
  · cases hc : n.closed with
    | false => rfl
    | true => rw [(hd.cls hc he).2.1] at hm; cases hm
  · intro hs
    rw [(hd.noste hs).1] at hm; cases hm

/-- An element left open in an element that ends at or shortly behind it ends with it. -/
theorem Doc.left_ends (h : Doc u cs void src roots ts) {n m : Node} {a : Nat} (hn : InForest roots n)
    (hm : InForest n.children m) (hl : LeftOpen m) (h1 : a ≤ m.stop) (h2 : n.stop ≤ a + 2) :
    m.stop = n.stop := by
  induction hm with
  | @root m hm =>
    have := ((parse_done h.parse hn).left m hm hl).2
    unfold contentEnd at this
    cases he : n.endTagStart with
    | none => rw [he] at this; exact this
    | some es =>
      rw [he] at this
      simp only [Option.getD_some] at this
      have := h.end_wide hn he
      omega
  | @child k m hk hm ih =>
    have hkf := inForest_below hn hk
    have := ((parse_done h.parse hkf).left m hm hl).2
    unfold contentEnd at this
    have hle := (inForest_inside (deep_forest (parse_nest h.parse).deep hn) hk).2.2
    cases he : k.endTagStart with
    | none =>
      rw [he] at this
      simp only [Option.getD_none] at this
      have := ih (left_of_child h hkf hm he) (by omega)
      omega
    | some es =>
      rw [he] at this
      simp only [Option.getD_some] at this
      have := h.end_wide hkf he
      omega

/-- An element left open ends at the end of the text or at the end tag of an ancestor. -/
theorem Doc.left_reach (h : Doc u cs void src roots ts) {k : Node} {ps : List Node} (hc : Chain roots ps k)
    (hl : LeftOpen k) : k.stop = src.length ∨ ∃ q ∈ ps, q.endTagStart = some k.stop := by
  have key : ∀ {l ps : List Node} {hi : Nat}, (∀ d ∈ l, InForest roots d) →
      (∀ d ∈ l, LeftOpen d → d.stop = hi) → Chain l ps k →
      k.stop = hi ∨ ∃ q ∈ ps, q.endTagStart = some k.stop := by
    intro l ps
    induction ps generalizing l with
    | nil => exact fun _ h2 h3 => .inl (h2 _ h3 hl)
    | cons p ps ih =>
      rintro hi h1 h2 ⟨h3, h4⟩
      rcases ih (hi := contentEnd p) (fun d hd => .child (h1 p h3) hd)
        (fun d hd ho => ((parse_done h.parse (h1 p h3)).left d hd ho).2) h4 with h5 | ⟨q, hq, h5⟩
      · unfold contentEnd at h5
        cases he : p.endTagStart with
        | none =>
          rw [he] at h5
          have hch : ∃ m, m ∈ p.children := by
            cases ps with
            | nil => exact ⟨_, h4⟩
            | cons q ps => exact ⟨_, h4.1⟩
          obtain ⟨m, hm⟩ := hch
          have := h2 p h3 (left_of_child h (h1 p h3) hm he)
          left
          simp only [Option.getD_none] at h5
          omega
        | some es =>
          rw [he] at h5
          exact .inr ⟨p, by simp, by rw [he]; simp at h5; rw [h5]⟩
      · exact .inr ⟨q, by simp [hq], h5⟩
  exact key (fun d hd => .root hd) (fun d hd ho => (C16_left_open_ends_with_parent _ _ _ _ _ h.parse).2 d hd ho |>.2) hc

theorem chain_snoc {l ps : List Node} {p n : Node} (h : Chain l (ps ++ [p]) n) : Chain l ps p := by
  induction ps generalizing l with
  | nil => exact h.1
  | cons q ps ih => exact ⟨h.1, ih h.2⟩

/-- The ancestors of an ancestor. -/
theorem chain_up {l : List Node} : ∀ {l1 l2 ps : List Node} {n k : Node}, Chain l ps n →
    n :: ps.reverse = l1 ++ k :: l2 → Chain l l2.reverse k
  | [], l2, ps, n, k, h, he => by
    simp only [List.nil_append, List.cons.injEq] at he
    obtain ⟨rfl, he⟩ := he
    rw [← he]; simpa using h
  | a :: l1, l2, ps, n, k, h, he => by
    simp only [List.cons_append, List.cons.injEq] at he
    obtain ⟨rfl, he⟩ := he
    cases hr : ps.reverse with
    | nil => rw [hr] at he; simp at he
    | cons p qs =>
      have hps : ps = qs.reverse ++ [p] := by
        have := congrArg List.reverse hr
        simpa using this
      rw [hps] at h
      refine chain_up (chain_snoc h) (l1 := l1) ?_
      rw [List.reverse_reverse, ← hr]; exact he

theorem isOpen_iff {o : Nat} {m : Node} :
    isOpen o m = true ↔ m.closed = false ∨ ∃ es, m.endTagStart = some es ∧ o < es := by
  unfold isOpen
  rw [Bool.or_eq_true, Bool.not_eq_true', Option.any_eq_true]
  simp

theorem Doc.not_in_end (h : Doc u cs void src roots ts) {x : Tok} (hx : x ∈ ts) (ht : x.type = .EndTagOpen)
    {n : Node} (hn : InForest roots n) (hlt : n.start < x.stop) : x.stop = x.offset + 2 ∧ n.start < x.offset := by
  have hok := h.textOK hx
  unfold TextOK at hok
  rw [ht] at hok
  have hle := (contiguous_le h.contiguous).2 x hx
  have hlen : x.stop = x.offset + 2 := by
    have := congrArg List.length hok
    simp [Spec.text] at this
    omega
  refine ⟨hlen, ?_⟩
  obtain ⟨pre, t, post, h1, h2, h3⟩ := h.node_tok hn
  have hm1 : t ∈ ts := by rw [h1]; simp
  rcases Nat.lt_or_ge n.start x.offset with h4 | h4
  · exact h4
  · exfalso
    rcases Nat.eq_or_lt_of_le h4 with h5 | h5
    · obtain ⟨p', q', hx'⟩ := List.append_of_mem hx
      obtain ⟨_, e, _⟩ := pos_unique h.contiguous hx' h1 (by omega) (h.nonempty hx (.inr (.inl ht)))
        (h.nonempty hm1 (.inl h2))
      rw [← e, ht] at h2; cases h2
    · have h6 := (parse_done h.parse hn).opn
      have h7 : n.start = x.offset + 1 := by omega
      have h8 := congrArg (·[1]?) hok
      simp only [Spec.text, List.getElem?_drop, List.getElem?_take] at h8
      rw [if_pos (by omega), ← h7] at h8
      rw [show (parserCfg u cs src).src = src from rfl, h8] at h6
      cases h6

/-- Everything open is the element that is found or one of its ancestors. -/
theorem Doc.open_found (h : Doc u cs void src roots ts) {x : Tok} (hx : x ∈ ts) (ht : x.type = .EndTagOpen)
    (hc : NoCut ts x.stop) {n m : Node}
    {ps : List Node} (hf : findNodeBefore roots x.stop = some (n, ps)) (hm : InForest roots m)
    (ho : OpenHere x.offset x.stop m) : m = n ∨ m ∈ ps := by
  obtain ⟨c1, c2, c3, c4, _⟩ := C23_last_node_before _ _ _ _ _ _ _ _ h.parse hf
  have hn := (chain_inForest c2).1
  obtain ⟨hlen, hlt⟩ := h.not_in_end hx ht hn c1
  obtain ⟨o1, o2, o3⟩ := ho
  rcases c3 m hm (by omega) with h1 | h1 | h1 | h1
  · exact .inl h1
  · exact .inr h1
  · omega
  · exfalso
    rcases c4 with ⟨c5, c6⟩ | ⟨c5, c6⟩
    · obtain ⟨y, hy, hym⟩ := inForest_cases h1
      have h4 := c6 y hy
      rcases hym with rfl | hym
      · omega
      · have := (h.inner_gt (.child hn hy) hym).2
        omega
    · have hins := (inForest_inside (deep_forest (parse_nest h.parse).deep hn) h1).2.2
      have hcl : m.closed = false := by
        rcases o3 with o3 | ⟨es, o3, o4⟩
        · exact o3
        · have := h.end_wide hm o3
          omega
      apply c6
      apply h.ends_last hn h1
      cases hs : m.startTagEnd with
      | none =>
        have hle := (parse_done h.parse hn).le
        simp only [parserCfg] at hle
        rcases (parse_tags h.parse h.tokens hm).cut hs with ⟨y, ⟨pre', t', mid', post', s1, _⟩, _, y3, y4⟩ | ⟨_, y⟩
        · have hy : y ∈ ts := by rw [s1]; simp
          rcases Nat.lt_or_ge y.stop x.stop with h5 | h5
          · exact absurd (hc y hy h5) y3
          · omega
        · omega
      | some e =>
        rw [hlen] at c5
        exact h.left_ends hn h1 ⟨hcl, by rw [hs]; simp⟩ o2 c5

/-- An open ancestor reaches up to the end tag. -/
theorem Doc.open_reach (h : Doc u cs void src roots ts) {x : Tok} (hx : x ∈ ts) (ht : x.type = .EndTagOpen)
    (hc : NoCut ts x.stop) {n k : Node}
    {ps l1 l2 : List Node} (hf : findNodeBefore roots x.stop = some (n, ps))
    (hl : n :: ps.reverse = l1 ++ k :: l2) (ho : isOpen x.stop k = true) : OpenHere x.offset x.stop k := by
  obtain ⟨c1, c2, c3, c4, c5⟩ := C23_last_node_before _ _ _ _ _ _ _ _ h.parse hf
  have hn := (chain_inForest c2).1
  have hck := chain_up c2 hl
  have hk := (chain_inForest hck).1
  have hle : k.start ≤ n.start := by
    have : k ∈ n :: ps.reverse := by rw [hl]; simp
    rcases List.mem_cons.1 this with rfl | hm
    · exact Nat.le_refl _
    · exact Nat.le_of_lt (h.inner_gt hk (chain_below c2 (List.mem_reverse.1 hm))).2
  obtain ⟨hlen, hlt⟩ := h.not_in_end hx ht hk (by omega)
  have ho' := isOpen_iff.1 ho
  have hxle := (contiguous_le h.contiguous).2 x hx
  refine ⟨hlt, ?_, ho'⟩
  rcases ho' with hcl | ⟨es, he, hes⟩
  · cases hs : k.startTagEnd with
    | none =>
      rcases (parse_tags h.parse h.tokens hk).cut hs with ⟨y, ⟨pre', t', mid', post', s1, _⟩, _, y3, y4⟩ | ⟨_, y⟩
      · have hy : y ∈ ts := by rw [s1]; simp
        rcases Nat.lt_or_ge y.stop x.stop with h5 | h5
        · exact absurd (hc y hy h5) y3
        · omega
      · omega
    | some e =>
      rcases h.left_reach hck ⟨hcl, by rw [hs]; simp⟩ with h1 | ⟨q, hq, h1⟩
      · omega
      · have hqps : q ∈ ps := by
          have hq2 : q ∈ l2 := List.mem_reverse.1 hq
          cases l1 with
          | nil =>
            simp only [List.nil_append, List.cons.injEq] at hl
            rw [← hl.2] at hq2; exact List.mem_reverse.1 hq2
          | cons a l1 =>
            simp only [List.cons_append, List.cons.injEq] at hl
            have : q ∈ ps.reverse := by rw [hl.2]; simp [hq2]
            exact List.mem_reverse.1 this
        have hqf := (chain_inForest c2).2 q hqps
        have hqs := h.end_wide hqf h1
        have hstop : x.stop < q.stop := by
          rcases c5 q hqps with h2 | ⟨y, h2, h3⟩
          · exact h2
          · have := h.inner_le hqf (.root (List.mem_of_getLast? h2))
            unfold contentEnd at this
            rw [h1] at this
            simp only [Option.getD_some] at this
            omega
        rcases Nat.lt_or_ge k.stop x.offset with h2 | h2
        · exfalso
          obtain ⟨y, ⟨pre, t, mid, post, s1, s2, s3, s4, s5⟩, hy⟩ := (parse_tags h.parse h.tokens hqf).ends _ h1
          have hxt : x ≠ t := by rintro rfl; omega
          have hm := before_of_lt h.contiguous s1 hx (by omega) hxt
          rcases List.mem_append.1 hm with hm | hm
          · have := s4 x hm
            rw [ht] at this; cases this
          · rcases List.mem_cons.1 hm with rfl | hm
            · rw [ht] at s5; cases s5
            · have hcg := h.contiguous
              rw [s1] at hcg
              obtain ⟨_, _, hcg, _⟩ := contiguous_split hcg
              obtain ⟨_, _, hcg⟩ := hcg
              obtain ⟨_, _, hcg, _⟩ := contiguous_split hcg
              obtain ⟨_, _, hcg⟩ := hcg
              have := contiguous_ge hcg hm
              omega
        · exact h2
  · have := h.end_wide hk he
    omega

/-- What is inserted behind `</`. -/
theorem end_eq {e : CompEnv} {d : TextDoc} {o : Nat} (h : Doc e.uni e.caseSensitive void d.text roots ts)
    (hc : NoCut ts o) : ∃ r, completeEnd e d o roots = .ok r ∧ ∀ v, r = some v ↔
      ∃ x n ps t, x ∈ ts ∧ x.type = .EndTagOpen ∧ x.stop = o ∧ Chain roots ps n ∧ OpenHere x.offset o n ∧
        (∀ m, InForest roots m → OpenHere x.offset o m → m = n ∨ m ∈ ps) ∧ n.tag = some t ∧
        v = if getStr d.text o (o + 1) ≠ some b!">" then t ++ b!">" else t := by
  have hcg := h.contiguous
  unfold completeEnd
  cases hf : findNodeBefore roots o with
  | none =>
    refine ⟨none, rfl, fun v => ⟨by simp, ?_⟩⟩
    rintro ⟨x, n, ps, t, h1, h2, h3, h4, h5, _⟩
    have hn := (chain_inForest h4).1
    have := (C23_none_iff _ _ _ _ _ _ h.parse).1 hf n hn
    have := h5.1
    have := h.nonempty h1 (.inr (.inl h2))
    omega
  | some y =>
    obtain ⟨k, ps⟩ := y
    obtain ⟨c1, c2, c3, c4, c5⟩ := C23_last_node_before _ _ _ _ _ _ _ _ h.parse hf
    simp only
    cases hfu : firstUp (isOpen o) k ps with
    | none =>
      refine ⟨none, rfl, fun v => ⟨by simp, ?_⟩⟩
      rintro ⟨x, n, qs, t, h1, h2, h3, h4, h5, _⟩
      subst h3
      have hm := h.open_found h1 h2 hc hf (chain_inForest h4).1 h5
      unfold firstUp at hfu
      rw [List.find?_eq_none] at hfu
      refine absurd (isOpen_iff.2 h5.2.2) (hfu n ?_)
      rcases hm with rfl | hm <;> simp_all
    | some q =>
      unfold firstUp at hfu
      obtain ⟨hq, l1, l2, hl, hno⟩ := List.find?_eq_some_iff_append.1 hfu
      have hcq := chain_up c2 hl
      have hqf := (chain_inForest hcq).1
      have hqk : q.start ≤ k.start := by
        have : q ∈ k :: ps.reverse := by rw [hl]; simp
        rcases List.mem_cons.1 this with rfl | hm
        · exact Nat.le_refl _
        · exact Nat.le_of_lt (h.inner_gt hqf (chain_below c2 (List.mem_reverse.1 hm))).2
      -- the element that is found is the innermost open one
      have inner : ∀ {x}, x ∈ ts → x.type = .EndTagOpen → x.stop = o →
          ∀ m, InForest roots m → OpenHere x.offset o m → m = q ∨ m ∈ l2.reverse := by
        rintro x hx ht rfl m hm hom
        have h1 := h.open_found hx ht hc hf hm hom
        have : m ∈ l1 ++ q :: l2 := by
          rw [← hl]
          rcases h1 with h1 | h1
          · simp [h1]
          · simp [h1]
        rcases List.mem_append.1 this with h2 | h2
        · have := hno m h2
          rw [isOpen_iff.2 hom.2.2] at this
          cases this
        · rcases List.mem_cons.1 h2 with h2 | h2
          · exact .inl h2
          · exact .inr (List.mem_reverse.2 h2)
      have same : ∀ {x n qs}, x ∈ ts → x.type = .EndTagOpen → x.stop = o → Chain roots qs n →
          OpenHere x.offset o n → (∀ m, InForest roots m → OpenHere x.offset o m → m = n ∨ m ∈ qs) → n = q := by
        intro x n qs h1 h2 h3 h4 h5 h6
        have hn := (chain_inForest h4).1
        rcases inner h1 h2 h3 n hn h5 with h7 | h7
        · exact h7
        · have hoq : OpenHere x.offset o q := by
            subst h3
            exact h.open_reach h1 h2 hc hf hl hq
          rcases h6 q hqf hoq with h8 | h8
          · exact h8.symm
          · have := (h.inner_gt hn (chain_below hcq h7)).2
            have := (h.inner_gt hqf (chain_below h4 h8)).2
            omega
      simp only
      cases htag : q.tag with
      | none =>
        refine ⟨none, rfl, fun v => ⟨by simp, ?_⟩⟩
        rintro ⟨x, n, qs, t, h1, h2, h3, h4, h5, h6, h7, _⟩
        rw [same h1 h2 h3 h4 h5 h6, htag] at h7
        cases h7
      | some t =>
        simp only
        obtain ⟨pre, t0, post, h1, h2, h3, h4, h5⟩ := h.from_node hqf
        obtain ⟨s, h6, h7⟩ := endsAt_eq (k := .EndTagOpen) (o := o) (by simp) h4
          (fun x hx => hc x (by rw [h1]; exact List.mem_append_right _ hx)) h5
        have h6 : scan (e.cfg d false) (.new q.start .WithinContent) = .ok s := h6
        have h7 : endsAt (e.cfg d false) .EndTagOpen o (2 * d.text.length + 2) s = _ := h7
        rw [h6]
        simp only [bind, Except.bind]
        rw [h7]
        refine ⟨_, rfl, fun v => ?_⟩
        constructor
        · intro hr
          split at hr
          · rename_i ha
            obtain ⟨x, hx, hp⟩ := List.any_eq_true.1 ha
            simp only [decide_eq_true_eq] at hp
            obtain ⟨p1, p2, p3⟩ := hp
            have hxm : x ∈ ts := by rw [h1]; exact List.mem_append_right _ hx
            refine ⟨x, q, l2.reverse, t, hxm, p1, p2, hcq, ?_, inner hxm p1 p2, htag, ?_⟩
            · subst p2
              exact h.open_reach hxm p1 hc hf hl hq
            · exact (Option.some.inj hr).symm
          · cases hr
        · rintro ⟨x, n, qs, t', n1, n2, n3, n4, n5, n6, n7, rfl⟩
          have := same n1 n2 n3 n4 n5 n6
          subst this
          rw [htag] at n7; cases n7
          have ha : (t0 :: post).any (fun t => t.type = .EndTagOpen ∧ t.stop = o ∧ t.offset < t.stop) = true := by
            refine List.any_eq_true.2 ⟨x, ?_, ?_⟩
            · have hne : x ≠ t0 := by
                rintro rfl
                rw [h2] at n2; cases n2
              exact List.mem_cons_of_mem _ (before_of_lt hcg h1 n1 (by have := n5.1; omega) hne)
            · simp only [decide_eq_true_eq]
              exact ⟨n2, n3, h.nonempty n1 (.inr (.inl n2))⟩
          rw [if_pos ha]

/-! ### No panic -/

theorem scan_total {c : Cfg} {s : Sc} (h : Clean c.src) (hi : BInv c s) :
    ∃ s1, scan c s = .ok s1 ∧ BInv c s1 ∧ (s1.tokenType = .EOS ∨ mu c s1 < mu c s) := by
  cases h1 : scan c s with
  | error e => exact absurd h1 (scan_clean h hi)
  | ok s1 =>
    refine ⟨s1, rfl, (scan_step h1).binv h hi, ?_⟩
    by_cases he : s1.tokenType = .EOS
    · exact .inl he
    · exact .inr ((scan_step h1).mu_lt he)

theorem endsAt_total {c : Cfg} {k : TT} {o f : Nat} {s : Sc} (h : Clean c.src) (hi : BInv c s)
    (hf : (s.tokenType = .EOS ∧ 0 < f) ∨ mu c s + 1 < f) : ∃ b, endsAt c k o f s = .ok b := by
  induction f generalizing s with
  | zero => omega
  | succ f ih =>
    unfold endsAt
    split
    · rename_i hc
      split
      · exact ⟨_, rfl⟩
      · obtain ⟨s1, h1, h2, h3⟩ := scan_total h hi
        rw [h1]
        refine ih h2 ?_
        rcases hf with hf | hf
        · exact absurd hf.1 hc.1
        · rcases h3 with h3 | h3
          · exact .inl ⟨h3, by omega⟩
          · exact .inr (by omega)
    · exact ⟨_, rfl⟩

theorem quoteLoop_total {c : Cfg} {v : Str} {o f : Nat} {s : Sc} (h : Clean c.src) (hi : BInv c s)
    (hf : (s.tokenType = .EOS ∧ 0 < f) ∨ mu c s + 1 < f) : ∃ b, quoteLoop c o v f s = .ok b := by
  induction f generalizing s with
  | zero => omega
  | succ f ih =>
    unfold quoteLoop
    split
    · rename_i hc
      obtain ⟨s1, h1, h2, h3⟩ := scan_total h hi
      rw [h1]
      split
      · simp only [bind, Except.bind]
        split
        · exact ⟨_, rfl⟩
        · obtain ⟨s2, h4, _⟩ := scan_total h h2
          rw [h4]
          simp only
          split <;> exact ⟨_, rfl⟩
      · refine ih h2 ?_
        rcases hf with hf | hf
        · exact absurd hf.1 hc.1
        · rcases h3 with h3 | h3
          · exact .inl ⟨h3, by omega⟩
          · exact .inr (by omega)
    · exact ⟨_, rfl⟩

theorem scan_start {c : Cfg} (h : Clean c.src) (a : Nat) : ∃ s, scan c (.new a .WithinContent) = .ok s ∧ BInv c s ∧
    ((s.tokenType = .EOS ∧ 0 < 2 * c.src.length + 2) ∨ mu c s + 1 < 2 * c.src.length + 2) := by
  obtain ⟨s, h1, h2, h3⟩ := scan_total (s := .new a .WithinContent) h (.inr (.inl rfl))
  refine ⟨s, h1, h2, ?_⟩
  rcases h3 with h3 | h3
  · exact .inl ⟨h3, by omega⟩
  · have := mu_le c (.new a .WithinContent)
    right; omega

theorem quote_total {e : CompEnv} {d : TextDoc} (h : Clean d.text) (position : Pos) (roots : List Node) :
    ∃ r, doQuoteComplete e d position roots = .ok r := by
  unfold doQuoteComplete
  simp only
  split
  · exact ⟨_, rfl⟩
  · split
    · exact ⟨_, rfl⟩
    · split
      · exact ⟨_, rfl⟩
      · split
        · exact ⟨_, rfl⟩
        · split
          · rename_i n _ _ _
            obtain ⟨s, h1, h2, h3⟩ := scan_start (c := e.cfg d false) h n.start
            rw [h1]
            exact quoteLoop_total h h2 h3
          · exact ⟨_, rfl⟩

theorem tag_total {e : CompEnv} {d : TextDoc} (h : Clean d.text) (position : Pos) (roots : List Node) :
    ∃ r, doTagComplete e d position roots = .ok r := by
  have ends : ∀ (a o : Nat) (k : TT) (g : Bool → Option Str), ∃ r, (do
      let s ← scan (e.cfg d false) (.new a .WithinContent)
      let b ← endsAt (e.cfg d false) k o (2 * d.text.length + 2) s
      .ok (g b) : R (Option Str)) = .ok r := by
    intro a o k g
    obtain ⟨s, h1, h2, h3⟩ := scan_start (c := e.cfg d false) h a
    rw [h1]
    obtain ⟨b, h4⟩ := endsAt_total (k := k) (o := o) (c := e.cfg d false) h h2 h3
    have h4 : endsAt (e.cfg d false) k o (2 * d.text.length + 2) s = .ok b := h4
    simp only [bind, Except.bind, h4]
    exact ⟨_, rfl⟩
  unfold doTagComplete
  simp only
  split
  · exact ⟨_, rfl⟩
  · split
    · unfold completeStart
      split
      · exact ⟨_, rfl⟩
      · split
        · exact ⟨_, rfl⟩
        · split
          · exact ends _ _ _ _
          · exact ⟨_, rfl⟩
    · split
      · unfold completeEnd
        split
        · exact ⟨_, rfl⟩
        · split
          · exact ⟨_, rfl⟩
          · split
            · exact ⟨_, rfl⟩
            · exact ends _ _ _ _
      · exact ⟨_, rfl⟩

/-! ### What every answer needs -/

/-- Everywhere: quotes are offered directly behind an attribute name and `=` only. -/
theorem quoteLoop_some {c : Cfg} {v r : Str} {o f : Nat} {s s0 : Sc} (h0 : scan c s0 = .ok s)
    (h : quoteLoop c o v f s = .ok (some r)) :
    r = v ∧ ∃ a, a + 1 < o ∧ AttributeName (bytesIn c.src a (o - 1)) := by
  induction f generalizing s s0 with
  | zero => cases h
  | succ f ih =>
    unfold quoteLoop at h
    split at h
    · split at h
      · rename_i hne hm
        obtain ⟨s1, h1, h⟩ := bind_ok h
        split at h
        · cases h
        · obtain ⟨s2, h2, h⟩ := bind_ok h
          split at h
          · cases h
          · cases h
            refine ⟨rfl, ?_⟩
            have hst := scan_step h0
            have hok := hst.textOK hne.1
            unfold TextOK at hok
            rw [show s.tok.type = s.tokenType from rfl, hm.1] at hok
            have e1 : Spec.text c.src s.tok = bytesIn c.src s0.pos (o - 1) := by
              unfold Spec.text bytesIn
              rw [show s.tok.offset = s0.pos from hst.offset_eq, show s.tok.stop = s.pos from rfl, hm.2]
            rw [e1] at hok
            refine ⟨s0.pos, ?_, hok⟩
            rcases Nat.lt_or_ge (s0.pos + 1) o with h9 | h9
            · exact h9
            · exfalso
              exact hok.1 (List.drop_eq_nil_of_le (by simp; omega))
      · obtain ⟨s1, h1, h⟩ := bind_ok h
        exact ih h1 h
    · cases h

end Html
