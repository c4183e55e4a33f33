import Verif.Proof.Cut
import Verif.Proof.CompletionClose
import Verif.Spec.AcceptSlash

/-! # The end tag that is proposed behind `</`, accepted -/

namespace Html
open Spec Props

variable {c : Cfg} {void : List Str} {P : Nat} {u : Uni} {cs : Bool} {src : Str} {roots : List Node} {ts : List Tok}

/-- The name of an element, written somewhere else in front of `>`. -/
theorem name_close {n : Node} {e : Nat} {t : Str} {cps : List Nat} (hu : Utf8 cps src)
    (h : parse u cs void src = .ok roots) (hn : InForest roots n) (he : n.startTagEnd = some e) (ht : n.tag = some t)
    (b' : Str) : t ≠ [] ∧ elementNameLen u (t ++ 62 :: b') = t.length := by
  have hN := (parse_done h hn).name
  obtain ⟨h0, hgt, _⟩ := (parse_done h hn).ste e he
  rw [he, ht] at hN
  obtain ⟨_, _, _, hel, _⟩ := hN.spec
  obtain ⟨w, _, hat, hle, hbd, hlen⟩ := hN.len t rfl
  simp only [Option.getD_some, parserCfg] at hle hbd hlen hat hgt
  have hne0 : t ≠ [] := hel.1
  refine ⟨hne0, ?_⟩
  have hpos : 0 < t.length := List.length_pos_iff.2 hne0
  generalize hj : n.start + 1 + w.length = j at hle hbd hlen
  obtain ⟨b, hb⟩ := hgt
  have hb : src.drop (e - 1) = 62 :: b := hb
  have hsrc : src = src.take (e - 1) ++ 62 :: b := by rw [← hb, List.take_append_drop]
  have hel : e - 1 < src.length := by
    rcases Nat.lt_or_ge (e - 1) src.length with h1 | h1
    · exact h1
    · rw [List.drop_of_length_le h1] at hb; cases hb
  have htl : (src.take (e - 1)).length = e - 1 := by simp; omega
  have hd : src.drop j = (src.take (e - 1)).drop j ++ 62 :: b := by
    conv => lhs; rw [hsrc]
    rw [List.drop_append_of_le_length (by omega)]
  have hle2 : j + t.length ≤ e - 1 := by
    have := firstRunLen_le_close (nameFirst_close u) (nameRest_close u) ((src.take (e - 1)).drop j) b
    rw [← hd] at this
    change elementNameLen u _ ≤ _ at this
    rw [hlen, List.length_drop] at this
    omega
  have hz : src.drop j = t ++ src.drop (j + t.length) := by
    obtain ⟨z, hz⟩ := hat
    have h1 : src.drop j = t ++ z := by
      have := congrArg (List.drop w.length) hz
      rw [List.drop_drop, hj, List.append_assoc, List.drop_left] at this
      exact this
    rw [← List.drop_drop, h1, List.drop_left]
  obtain ⟨v, hv⟩ : ∃ v, src[j + t.length]? = some v := ⟨_, List.getElem?_eq_getElem (by omega)⟩
  have hvc : isCont v = false := by
    refine nameLen_stop (u := u) (r := src.drop j) (by omega) v ?_
    rw [hlen, List.getElem?_drop, hv]
  have hwt : Whole t := by
    have := whole_of_utf8 (a := j) hu hv hvc
    rwa [bytesIn_eq_take, hz, List.take_left] at this
  obtain ⟨d, t', rfl⟩ := List.exists_cons_of_ne_nil hne0
  refine nameLen_close (z := src.drop (j + (d :: t').length)) hwt ?_ (by rw [← hz]; exact hlen)
  have hd0 : src[j]? = some d := by
    have : (src.drop j)[0]? = some d := by rw [hz]; rfl
    simpa using this
  unfold isBoundary at hbd
  rw [hd0] at hbd
  split at hbd
  · rename_i h; omega
  · simpa using hbd

/-- An end tag does not begin within a start tag. -/
theorem Doc.open_complete (h : Doc u cs void src roots ts) {x : Tok} (hx : x ∈ ts) (ht : x.type = .EndTagOpen)
    {k : Node} (hk : InForest roots k) (ho : OpenAt x.offset k) : k.startTagEnd ≠ none := by
  intro hs
  have hlt : x.offset < k.stop := by
    rcases ho.2 with h1 | ⟨_, _, h1⟩
    · exact h1
    · exact absurd hs h1
  have hxs := h.nonempty hx (.inr (.inl ht))
  rcases (parse_tags h.parse h.tokens hk).cut hs with ⟨y, ⟨pre, t, mid, post, s1, s2, s3, s4, s5⟩, y2, y3, y4⟩ |
    ⟨⟨pre, t, mid, s1, s2, s3, s4⟩, y⟩
  · have hxt : x ≠ t := by rintro rfl; rw [ht] at s2; cases s2
    have hm := before_of_lt h.contiguous s1 hx (by have := ho.1; omega) hxt
    rcases List.mem_append.1 hm with hm | hm
    · have := s4 x hm
      rw [ht] at this; cases this
    · rcases List.mem_cons.1 hm with rfl | hm
      · rw [ht] at y2; cases y2
      · have hcg := h.contiguous
        rw [s1] at hcg
        obtain ⟨_, _, hcg, _⟩ := contiguous_split hcg
        obtain ⟨_, _, hcg⟩ := hcg
        obtain ⟨_, _, hcg, _⟩ := contiguous_split hcg
        obtain ⟨_, _, hcg⟩ := hcg
        have := contiguous_ge hcg hm
        omega
  · have hxt : x ≠ t := by rintro rfl; rw [ht] at s2; cases s2
    have hm := before_of_lt h.contiguous s1 hx (by have := ho.1; omega) hxt
    have := s4 x hm
    rw [ht] at this; cases this

/-- What is open for the completion is open for the parser. -/
theorem Doc.openAt (h : Doc u cs void src roots ts) {x : Tok} (hx : x ∈ ts) (hlen : x.stop = x.offset + 2)
    (hc : NoCut ts x.stop) {n : Node} (hn : InForest roots n) (ho : OpenHere x.offset x.stop n) : OpenAt x.offset n := by
  obtain ⟨h1, h2, h3⟩ := ho
  refine ⟨h1, ?_⟩
  rcases Nat.lt_or_ge x.offset n.stop with h4 | h4
  · exact .inl h4
  · have h5 : x.offset = n.stop := by omega
    have hcl : n.closed = false := by
      rcases h3 with h3 | ⟨es, h3, h6⟩
      · exact h3
      · have := h.end_wide hn h3
        omega
    refine .inr ⟨h5, hcl, fun hs => ?_⟩
    have hxle := (contiguous_le h.contiguous).2 x hx
    rcases (parse_tags h.parse h.tokens hn).cut hs with ⟨y, ⟨pre, t, mid, post, s1, _⟩, _, y3, y4⟩ | ⟨_, y⟩
    · exact absurd (hc y (by rw [s1]; simp) (by omega)) y3
    · omega

theorem cut_forest {lo hi : Nat} {l : List Node} {n : Node} (hl : Siblings lo l hi) (hd : ∀ k, InForest l k → Done c void k)
    (hn : InForest l n) (hlt : n.start < P) : InForest (cutAll P l) (cutImage P n) := by
  induction hn with
  | root hr => exact .root (mem_cutAll hl hr hlt)
  | @child m n hm hc ih =>
    have hd := hd m hm
    obtain ⟨e, he⟩ : ∃ e, m.startTagEnd = some e := by
      cases h : m.startTagEnd with
      | none => rw [(hd.noste h).1] at hc; cases hc
      | some e => exact ⟨e, rfl⟩
    obtain ⟨h0, _, h1, h2⟩ := hd.ste e he
    have h3 := siblings_start h1 n hc
    have hm' := ih (by omega)
    refine .child hm' ?_
    unfold cutImage at hm' ⊢
    by_cases ho : OpenAt P m
    · rw [if_pos ho, cutNode_eq]
      exact mem_cutAll h1 hc hlt
    · rw [if_neg ho, if_neg (hd.before hc ho (by omega)).2]
      exact hc

/-- Everything in finished elements is finished. -/
theorem before_deep {l : List Node} {k : Node} (h1 : ∀ m ∈ l, Before P m) (h2 : ∀ m ∈ l, Deep (Done c void) m)
    (hk : InForest l k) : Before P k ∧ Deep (Done c void) k := by
  induction hk with
  | root hr => exact ⟨h1 _ hr, h2 _ hr⟩
  | @child m n hm hc ih =>
    obtain ⟨⟨k1, k2⟩, k3, k4⟩ := ih
    exact ⟨k3.before hc k2 k1, k4 n hc⟩

theorem cutAll_filter {lo hi : Nat} {l : List Node} (hl : Siblings lo l hi) (h : ∀ k ∈ l, ¬ OpenAt P k) :
    cutAll P l = l.filter (fun k => k.start < P) := by
  induction l generalizing lo with
  | nil => rw [cutAll]; rfl
  | cons n l ih =>
    rw [cutAll, if_neg (h n (by simp))]
    by_cases hlt : n.start < P
    · rw [if_pos hlt, List.filter_cons_of_pos (by simpa using hlt), ih hl.2.2 (fun k hk => h k (by simp [hk]))]
    · rw [if_neg hlt, List.filter_cons_of_neg (by simpa using hlt)]
      refine (List.filter_eq_nil_iff.2 fun k hk => ?_).symm
      have := siblings_start hl.2.2 k hk
      have := hl.2.1
      simp; omega

/-- The innermost open element is in the tree of the stack. -/
theorem finishAll_top {len : Nat} {n q : Node} {l : List Node} :
    InForest (finishAll len n (q :: l)).children { n with stop := len, closed := false } := by
  have h : Kept false (· = { n with stop := len, closed := false }) [finishAll len n (q :: l)] := by
    rw [finishAll]
    exact Kept.finishAll (by simp) (.inr ⟨_, List.mem_cons_self, _, .root (List.mem_append_right _ List.mem_cons_self), rfl⟩)
  rcases h with ⟨hb, _⟩ | ⟨q, hq, m, h1, h2⟩
  · cases hb
  · simp only [List.mem_singleton] at hq
    subst hq; subst h2
    exact h1

/-- No end tag begins directly behind `</`. -/
theorem Doc.no_end_behind (h : Doc u cs void src roots ts) {x : Tok} (hx : x ∈ ts) (ht : x.type = .EndTagOpen)
    {n : Node} (hn : InForest roots n) : n.endTagStart ≠ some x.stop := by
  intro he
  obtain ⟨z, ⟨pre, t, mid, post, s1, s2, s3, _, _⟩, _⟩ := (parse_tags h.parse h.tokens hn).ends _ he
  have htm : t ∈ ts := by rw [s1]; simp
  have hne := h.nonempty htm (.inr (.inl s2))
  obtain ⟨p', q', hx'⟩ := List.append_of_mem hx
  obtain ⟨c0, c1, c2, h1, h2, h3, h4⟩ := h.split hx'
  have hst : c1.state = .AfterOpeningEndTag := ((h1.endFacts h2).enter (by rw [← ht, ← h3]; rfl)).1
  have hp : c1.pos = x.stop := by rw [← h3]; rfl
  have hxt : t ≠ x := by
    rintro rfl
    omega
  have hm := before_of_lt h.contiguous hx' htm (by have := h.nonempty hx (.inr (.inl ht)); omega) hxt
  cases q' with
  | nil => cases hm
  | cons y q' =>
    have hy : x.stop < y.stop ∧ y.type ≠ .EndTagOpen := by
      cases h4 with
      | @cons _ s' _ _ hs hne hr =>
        have hstep := scan_step hs
        show x.stop < s'.pos ∧ s'.tokenType ≠ .EndTagOpen
        rw [← hp]
        cases hstep with
        | eos h => exact absurd rfl hne
        | _ => simp_all [fin, adv]
    rcases List.mem_cons.1 hm with rfl | hm
    · exact hy.2 s2
    · have hcg := h.contiguous
      rw [hx'] at hcg
      obtain ⟨_, _, hcg, _⟩ := contiguous_split hcg
      obtain ⟨_, _, hcg⟩ := hcg
      obtain ⟨_, _, hcg⟩ := hcg
      have := contiguous_ge hcg hm
      omega

theorem siblings_apart {lo hi : Nat} {l : List Node} (hl : Siblings lo l hi) {n m : Node} (hn : n ∈ l) (hm : m ∈ l) :
    n = m ∨ n.stop ≤ m.start ∨ m.stop ≤ n.start := by
  induction l generalizing lo with
  | nil => cases hn
  | cons k l ih =>
    rcases List.mem_cons.1 hn with rfl | hn' <;> rcases List.mem_cons.1 hm with rfl | hm'
    · exact .inl rfl
    · exact .inr (.inl (siblings_start hl.2.2 m hm'))
    · exact .inr (.inr (siblings_start hl.2.2 n hn'))
    · exact ih hl.2.2 hn' hm'

/-- Of two elements around the same place one is inside of the other. -/
theorem Doc.nested (h : Doc u cs void src roots ts) {n k : Node} (hn : InForest roots n) (hk : InForest roots k)
    (h1 : n.start < P ∧ P ≤ n.stop) (h2 : k.start < P ∧ P ≤ k.stop) :
    n = k ∨ InForest n.children k ∨ InForest k.children n := by
  have inside : ∀ {m k}, InForest roots m → InForest m.children k → m.start < k.start ∧ k.stop ≤ m.stop := fun hm hk =>
    ⟨(h.inner_gt hm hk).2, (inForest_inside (deep_forest (parse_nest h.parse).deep hm) hk).2.2⟩
  have apart : ∀ {lo hi l r}, Siblings lo l hi → n ∈ l → r ∈ l → InForest roots r → (k = r ∨ InForest r.children k) →
      n = k ∨ InForest n.children k ∨ InForest k.children n := by
    intro lo hi l r hl hn hr hrf hkr
    have hb : r.start ≤ k.start ∧ k.stop ≤ r.stop := by
      rcases hkr with rfl | hkr
      · exact ⟨Nat.le_refl _, Nat.le_refl _⟩
      · have := inside hrf hkr
        omega
    rcases siblings_apart hl hn hr with rfl | h3 | h3
    · rcases hkr with rfl | hkr
      · exact .inl rfl
      · exact .inr (.inl hkr)
    · omega
    · omega
  induction hn with
  | root hr =>
    obtain ⟨r, hr', hkr⟩ := inForest_cases hk
    exact apart (parse_kids h.parse).sib hr hr' (.root hr') hkr
  | @child m n hm hc ih =>
    have hin := inside hm (.root hc)
    have hd := parse_done h.parse hm
    obtain ⟨e, he⟩ : ∃ e, m.startTagEnd = some e := by
      cases h : m.startTagEnd with
      | none => rw [(hd.noste h).1] at hc; cases hc
      | some e => exact ⟨e, rfl⟩
    have hsib := (hd.ste e he).2.2.1
    have step : InForest m.children k → n = k ∨ InForest n.children k ∨ InForest k.children n := by
      intro hmk
      obtain ⟨r, hr', hkr⟩ := inForest_cases hmk
      exact apart hsib hc hr' (.child hm hr') hkr
    rcases ih ⟨by omega, by omega⟩ (fun {lo hi l r} hl hml hrl hrf hkr => by
      have hb : r.start ≤ k.start ∧ k.stop ≤ r.stop := by
        rcases hkr with rfl | hkr
        · exact ⟨Nat.le_refl _, Nat.le_refl _⟩
        · have := inside hrf hkr
          omega
      rcases siblings_apart hl hml hrl with rfl | h3 | h3
      · rcases hkr with rfl | hkr
        · exact .inl rfl
        · exact .inr (.inl hkr)
      · omega
      · omega) with h3 | h3 | h3
    · subst h3; exact .inr (.inr (.root hc))
    · exact step h3
    · exact .inr (.inr (.child h3 hc))

theorem accept_slash {a b t b' : Str} {n : Node} {roots roots' : List Node} {cps : List Nat} {x : Tok} {ps : List Node}
    (ha : EndsInContent u cs a) (hu : Utf8 cps (a ++ (b!"</" ++ b))) (h : Doc u cs void (a ++ (b!"</" ++ b)) roots ts)
    (hx : x ∈ ts) (hxt : x.type = .EndTagOpen) (hxo : x.offset = a.length) (hxs : x.stop = a.length + 2)
    (hcut : NoCut ts x.stop) (hc : Chain roots ps n) (ho : OpenHere x.offset x.stop n)
    (hin : ∀ m, InForest roots m → OpenHere x.offset x.stop m → m = n ∨ m ∈ ps) (ht : n.tag = some t)
    (hno : ∀ k, InForest n.children k → k.endTagStart ≠ some a.length)
    (h' : parse u cs void (a ++ (b!"</" ++ t ++ b!">" ++ b')) = .ok roots') :
    InForest roots' (closedHere n a.length t) := by
  have hn := (chain_inForest hc).1
  have hnO := h.openAt hx (by omega) hcut hn ho
  have hnS := h.open_complete hx hxt hn hnO
  rw [hxo] at hnO
  obtain ⟨a0, t0, hp, ht0, ha0⟩ := ha
  have e1 : a ++ (b!"</" ++ b) = a0 ++ (t0 ++ (b!"</" ++ b)) := by rw [hp]; simp
  have e2 : a ++ (b!"</" ++ t ++ b!">" ++ b') = a0 ++ (t0 ++ (b!"</" ++ t ++ b!">" ++ b')) := by rw [hp]; simp
  have hlen : a.length = a0.length + t0.length := by rw [hp]; simp
  have hx0 := h.parse
  have hy0 := h'
  rw [e1] at hx0
  rw [e2] at hy0
  obtain ⟨s, q, q', rx, ry, h1, h2, h3, h4, h5, h6, h7⟩ := parse_to_content ha0 hx0 hy0
  rw [← e1] at h4 h6 h2
  rw [← e2] at h5 h7
  obtain ⟨sA, h8, h9⟩ := h4.text (t := t0) (x := b!"</" ++ b) h1 (by rw [show (parserCfg u cs (a ++ (b!"</" ++ b))).src = a ++ (b!"</" ++ b) from rfl, e1, List.drop_left]) ht0
  obtain ⟨sB, h10, h11⟩ := h5.text (t := t0) (x := b!"</" ++ t ++ b!">" ++ b') h1 (by rw [show (parserCfg u cs (a ++ (b!"</" ++ t ++ b!">" ++ b'))).src = a ++ (b!"</" ++ t ++ b!">" ++ b') from rfl, e2,
      List.drop_left]) ht0
  rw [← hlen] at h8 h10
  have hin0 : InContent (parserCfg u cs (a ++ (b!"</" ++ b))) void q a.length :=
    StackOK.mono h2 (by omega) (by simp [parserCfg])
  have hold := oldStack_of hin0 (Nat.le_refl _) (srel_self hin0)
  have k1 := h9.cutOld h8 (by simp [parserCfg]) hold
  rw [show (parserCfg u cs (a ++ (b!"</" ++ b))).src.length = (a ++ (b!"</" ++ b)).length from rfl, h6] at k1
  -- the children of the innermost open element are finished
  have hkids : (∀ m ∈ q.cur.children, Before a.length m) ∧
      ∀ m ∈ q.cur.children, Deep (Done (parserCfg u cs (a ++ (b!"</" ++ b))) void) m := by
    unfold InContent at hin0
    cases hq : q.parents with
    | nil =>
      rw [hq] at hin0
      exact ⟨Kids.before hin0 (Nat.le_refl _), hin0.done⟩
    | cons q2 qs =>
      rw [hq] at hin0
      obtain ⟨x, _, _, _, _, _, _, he6⟩ := hin0.1.ste
      exact ⟨he6.before (Nat.le_refl _), he6.done⟩
  have hfin : ∀ {k}, InForest roots k → OpenAt a.length k → InForest q.cur.children (cutNode a.length k) → False := by
    intro k hk hko hkc
    have hs := h.open_complete hx hxt hk (by rw [hxo]; exact hko)
    refine (before_deep hkids.1 hkids.2 hkc).1.2 ?_
    rw [cutNode_eq]
    exact ⟨hko.1, .inr ⟨rfl, rfl, hs⟩⟩
  cases hpar : q.parents with
  | nil =>
    exfalso
    rw [hpar] at k1
    have := cut_forward (P := a.length) h.parse hn hnO.1
    rw [k1, cutImage, if_pos hnO] at this
    exact hfin hn hnO this
  | cons q2 qs =>
    rw [hpar] at k1 hold
    unfold InContent at hin0
    rw [hpar] at hin0
    obtain ⟨e, he1, he2, _, _, _, _, he6⟩ := hin0.1.ste
    have hele := he6.sib.le
    -- the element of the tree that is the innermost open one
    obtain ⟨n0, hn0, hlt0, him⟩ := cut_backward h.parse
      (k1 ▸ finishAll_top (len := a.length) (n := q.cur) (q := q2) (l := qs))
    have hO0 : OpenAt a.length n0 := by
      refine Classical.byContradiction fun hneg => ?_
      rw [cutImage, if_neg hneg] at him
      apply hneg
      rw [← him]
      exact ⟨by rw [← him] at hlt0; exact hlt0, .inr ⟨rfl, rfl, by simp [he1]⟩⟩
    rw [cutImage, if_pos hO0, cutNode_eq] at him
    have i1 : q.cur.tag = n0.tag := (Node.mk.inj him).1
    have i2 : q.cur.start = n0.start := (Node.mk.inj him).2.1
    have i3 : q.cur.children = cutAll a.length n0.children := (Node.mk.inj him).2.2.2.1
    have i4 : q.cur.startTagEnd = n0.startTagEnd := (Node.mk.inj him).2.2.2.2.2.1
    have i5 : q.cur.attributes = n0.attributes := (Node.mk.inj him).2.2.2.2.2.2.2
    have hd0 := parse_done h.parse hn0
    rw [he1] at i4
    have hsib0 := (hd0.ste e i4.symm).2.2.1
    have hdeep0 : ∀ k, InForest n0.children k → Done (parserCfg u cs (a ++ (b!"</" ++ b))) void k := fun k hk =>
      parse_done h.parse (inForest_below hn0 hk)
    -- it is the one that the completion finds
    have hH0 : OpenHere x.offset x.stop n0 := by
      rw [hxo, hxs]
      refine ⟨hlt0, ?_, ?_⟩
      · rcases hO0.2 with h5 | h5
        · exact Nat.le_of_lt h5
        · exact Nat.le_of_eq h5.1
      · cases hcl : n0.closed with
        | false => exact .inl hcl
        | true =>
          have hst : a.length < n0.stop := by
            rcases hO0.2 with h5 | h5
            · exact h5
            · rw [h5.2.1] at hcl; cases hcl
          cases hets : n0.endTagStart with
          | none =>
            have := (hd0.cls hcl hets).1
            rw [← i4] at this
            cases this
            omega
          | some es =>
            refine .inr ⟨es, hets, ?_⟩
            have m12 : es ≠ a.length ∧ es ≠ a.length + 2 := by
              have hcl := (hd0.ets es hets).1
              rcases h.nested (P := a.length) hn0 hn ⟨hlt0, Nat.le_of_lt hst⟩ ⟨hnO.1, by have := ho.2.1; omega⟩ with h5 | h5 | h5
              · subst h5
                rcases ho.2.2 with h6 | ⟨es', h6, h7⟩
                · rw [h6] at hcl; cases hcl
                · rw [hets] at h6; cases h6; omega
              · exfalso
                have := cut_forest (P := a.length) hsib0 hdeep0 h5 hnO.1
                rw [cutImage, if_pos hnO, ← i3] at this
                exact hfin hn hnO this
              · have m1 := hno n0 h5
                have m2 := h.no_end_behind hx hxt hn0
                rw [hets] at m1 m2
                exact ⟨fun e => m1 (by rw [e]), fun e => m2 (by rw [e, hxs])⟩
            obtain ⟨m1, m2⟩ := m12
            have hat := (hd0.ets es hets).2.1
            rcases Nat.lt_or_ge es a.length with h5 | h5
            · exfalso
              obtain ⟨y, ⟨pre, z, mid, post, s1, s2, s3, s4, s5⟩, hy⟩ := (parse_tags h.parse h.tokens hn0).ends _ hets
              have hxz : x ≠ z := by rintro rfl; omega
              have hm := before_of_lt h.contiguous s1 hx (by omega) hxz
              rcases List.mem_append.1 hm with hm | hm
              · have := s4 x hm
                rw [hxt] at this; cases this
              · rcases List.mem_cons.1 hm with rfl | hm
                · rw [hxt] at s5; cases s5
                · have hcg := h.contiguous
                  rw [s1] at hcg
                  obtain ⟨_, _, hcg, _⟩ := contiguous_split hcg
                  obtain ⟨_, _, hcg⟩ := hcg
                  obtain ⟨_, _, hcg, _⟩ := contiguous_split hcg
                  obtain ⟨_, _, hcg⟩ := hcg
                  have := contiguous_ge hcg hm
                  omega
            · have n3 : es ≠ a.length + 1 := by
                rintro rfl
                obtain ⟨r, hr⟩ := hat
                have : ((a ++ (b!"</" ++ b)).drop (a.length + 1))[0]? = some 60 := by
                  rw [show (parserCfg u cs (a ++ (b!"</" ++ b))).src = a ++ (b!"</" ++ b) from rfl] at hr
                  rw [hr]; rfl
                simp at this
              omega
    have hsame : n0 = n := by
      rcases hin n0 hn0 hH0 with h5 | h5
      · exact h5
      · exfalso
        have hb := chain_below hc h5
        have := cut_forest (P := a.length) hsib0 hdeep0 hb hnO.1
        rw [cutImage, if_pos hnO, ← i3] at this
        exact hfin hn hnO this
    subst hsame
    -- the other text
    rw [hpar] at h3
    obtain ⟨f1, f2⟩ := h3.uncons (by simp)
    rw [shift_zero] at f1
    have hq'par := f2.ne.2
    have hname := name_close hu h.parse hn0 i4.symm ht b'
    have hdrop : (parserCfg u cs (a ++ (b!"</" ++ t ++ b!">" ++ b'))).src.drop a.length = b!"</" ++ t ++ [] ++ b!">" ++ b' := by
      simp [parserCfg]
    obtain ⟨s4, p4, hs4, hout4, hc4, _⟩ := h11.endTagOf h10 hdrop hname.1 hname.2 (by intro b hb; cases hb)
      (by rw [f1, i1, ht]) hq'par
    have := hout4.keeps (m := closedHere n0 a.length t) ?_ (a ++ (b!"</" ++ t ++ b!">" ++ b')).length
    · rwa [h7] at this
    · refine ⟨_, List.mem_cons_self, _, ?_, rfl⟩
      rw [hc4]
      refine .root (List.mem_append_right _ ?_)
      rw [cutAll_filter hsib0 ?_] at i3
      · rw [List.mem_singleton, f1, closedHere]
        simp only [i1, i2, i3, i5, he1, ← i4]
        simp
      · intro k hk hko
        have := mem_cutAll (P := a.length) hsib0 hk hko.1
        rw [cutImage, if_pos hko, ← i3] at this
        exact hfin (.child hn0 hk) hko (.root this)

end Html
