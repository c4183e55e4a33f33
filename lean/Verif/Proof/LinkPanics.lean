import Verif.Proof.LinkTotal
import Verif.Proof.FoldPanics
import Verif.Proof.SelectionPanics
import Verif.Proof.HoverAnswers

/-!
# Document links: when the search panics
-/

namespace Html

open Spec

theorem normalizeRef_lone {v : Str} (h : LoneQuote v) : normalizeRef v = .error .slice := by
  rcases h with rfl | rfl <;> rfl

theorem normalizeRef_utf8 {v : Str} {cps : List Nat} (hu : Utf8 cps v) (h : ¬ LoneQuote v) :
    normalizeRef v = .ok (bare v) := by
  have : ∃ w, normalizeRef v = .ok w := by
    unfold normalizeRef
    split
    · rename_i hc
      obtain ⟨h0, h1, h2⟩ := hc
      cases v with
      | nil => simp at h0
      | cons a t =>
        simp only [List.head?_cons, Option.some.injEq] at h1 h2
        have ha : a < 128 := by rcases h2 with rfl | rfl <;> omega
        have hl : 2 ≤ (a :: t).length := by
          cases t with
          | nil => exact absurd (by rcases h2 with rfl | rfl; exact .inl rfl; exact .inr rfl) h
          | cons b t => simp
        have hb : (a :: t)[(a :: t).length - 1]? = some a := by
          rw [← List.getLast?_eq_getElem?, ← h1]
        rw [sliceStr_eq (by omega) (asciiNext_of_utf8 hu 0 a rfl ha) (isBoundary_ascii hb ha)]
        exact ⟨_, rfl⟩
    · exact ⟨_, rfl⟩
  obtain ⟨w, hw⟩ := this
  rw [hw, (normalizeRef_ok hw).1]

theorem workspaceUrl_panics {e : LinkEnv} {v : Str} {b : Option Str} (hv : validateRef e.uni v = true) :
    (∃ er, workspaceUrl e v b = .error er) ↔ IsRelative e v ∧ ResolvePanics e (trimStart v) (b.getD e.uri) := by
  unfold workspaceUrl IsRelative ResolvePanics
  cases hj : isJavascript v with
  | true => simp
  | false =>
    cases hs : schemaOf e.uni (trimStart v) with
    | some x =>
      simp only [Bool.false_eq_true, if_false, hs]
      split <;> simp
    | none =>
      simp only [Bool.false_eq_true, if_false, hs, hv, true_and, ← List.isPrefixOf_iff_prefix]
      by_cases h1 : (b!"#").isPrefixOf (trimStart v) = true
      · rw [if_pos h1]; simp [h1]
      · rw [if_neg h1]
        by_cases h2 : (b!"//").isPrefixOf (trimStart v) = true
        · rw [if_pos h2]; simp [h2]
        · rw [if_neg h2]
          exact ⟨fun h => ⟨⟨h1, h2⟩, h⟩, fun h => h.2⟩

theorem createLink_panics {e : LinkEnv} {d : TextDoc} (hf : Forgiving e) {v : Str} {start : Nat} {b : Option Str}
    {cps : List Nat} (hu : Utf8 cps v) :
    (∃ er, createLink e d v start (start + v.length) b = .error er) ↔
      LoneQuote v ∨ IsRelative e (bare v) ∧ ResolvePanics e (trimStart (bare v)) (b.getD e.uri) := by
  unfold createLink
  by_cases hq : LoneQuote v
  · rw [normalizeRef_lone hq]
    exact ⟨fun _ => .inl hq, fun _ => ⟨_, rfl⟩⟩
  · rw [normalizeRef_utf8 hu hq]
    simp only [bind, Except.bind, hq, false_or]
    cases hv : validateRef e.uni (bare v) with
    | false =>
      simp [IsRelative, hv]
    | true =>
      rw [if_neg (by simp), ← workspaceUrl_panics hv]
      have hs : ∃ x, linkStop (decide ((bare v).length < v.length)) (start + v.length) = .ok x := by
        unfold linkStop
        split
        · rename_i hc
          have := of_decide_eq_true hc
          unfold subU
          rw [if_pos (by omega)]
          exact ⟨_, rfl⟩
        · exact ⟨_, rfl⟩
      obtain ⟨x, hx⟩ := hs
      rw [hx]
      dsimp only
      cases hw : workspaceUrl e (bare v) b with
      | error er => simp
      | ok url =>
        cases url with
        | none => simp
        | some url =>
          dsimp only
          obtain ⟨t, ht⟩ := cleanUri_total hf url
          rw [ht]
          simp

theorem newBase_panics {e : LinkEnv} {v : Str} {cps : List Nat} (hu : Utf8 cps v) :
    (∃ er, newBase e v = .error er) ↔ LoneQuote v ∨ bare v ≠ [] ∧ ResolvePanics e (bare v) e.uri := by
  unfold newBase ResolvePanics
  by_cases hq : LoneQuote v
  · rw [normalizeRef_lone hq]
    exact ⟨fun _ => .inl hq, fun _ => ⟨_, rfl⟩⟩
  · rw [normalizeRef_utf8 hu hq]
    simp only [bind, Except.bind, hq, false_or]
    by_cases hb : bare v = []
    · simp [hb]
    · rw [if_pos (List.length_pos_iff.2 hb)]
      cases hr : e.resolve (bare v) e.uri with
      | error er => simp [hb]
      | ok x => cases x <;> simp

theorem linkPath_panics {e : LinkEnv} {d : TextDoc} (hf : Forgiving e) {st : LinkState} {t : Tok} {cps : List Nat}
    (hs : sliceStr d.text t.offset t.stop = .ok (text d.text t)) (hl : t.offset + (text d.text t).length = t.stop)
    (hu : Utf8 cps (text d.text t)) :
    (∃ er, linkPath e d st t = .error er) ↔
      (st.inBase = true ∧ st.base = none ∧ (LoneQuote (text d.text t) ∨
        bare (text d.text t) ≠ [] ∧ ResolvePanics e (bare (text d.text t)) e.uri)) ∨
      (st.inBase = false ∧ (LoneQuote (text d.text t) ∨ IsRelative e (bare (text d.text t)) ∧
        ResolvePanics e (trimStart (bare (text d.text t))) (st.base.getD e.uri))) := by
  unfold linkPath pathLinks pathBase
  rw [hs, ← newBase_panics hu, ← createLink_panics (d := d) hf (start := t.offset) hu, hl]
  simp only [bind, Except.bind]
  cases hi : st.inBase with
  | true =>
    simp only [if_true, true_and]
    cases hb : st.base with
    | some x => simp
    | none =>
      simp only [if_true]
      cases newBase e (text d.text t) <;> simp [Except.map]
  | false =>
    simp only [Bool.false_eq_true, if_false, false_and]
    cases createLink e d (text d.text t) t.offset t.stop st.base with
    | error er => simp
    | ok x => cases x <;> simp

/-- The tokens that are read can be read. -/
theorem link_slices {c : Cfg} {cps : List Nat} {ts : List Tok} (hu : Utf8 cps c.src)
    (h : tokens c (.new 0 .WithinContent) = .ok ts) {t : Tok} (ht : t ∈ ts)
    (hk : t.type = .StartTag ∨ t.type = .AttributeName ∨ t.type = .AttributeValue) :
    sliceStr c.src t.offset t.stop = .ok (text c.src t) ∧ t.offset + (text c.src t).length = t.stop ∧
      ∃ cps', Utf8 cps' (text c.src t) := by
  obtain ⟨s2, hr, _⟩ := tokens_run h
  have hn := asciiNext_of_utf8 hu
  have h1 : ∃ x, sliceStr c.src t.offset t.stop = .ok x := by
    rcases hk with hk | hk
    · exact hr.slices hn (.inr (.inl rfl)) (Nat.zero_le _) t ht (.inl hk)
    · obtain ⟨b1, b2⟩ := hr.attrBd hn ht hk
      exact ⟨_, sliceStr_eq ((hr.contiguous (Nat.zero_le _)).1.mem ht).1 b1 b2⟩
  obtain ⟨x, hx⟩ := h1
  have := sliceStr_text hx
  subst this
  refine ⟨hx, ?_, ?_⟩
  all_goals
    unfold sliceStr at hx
    split at hx
    · rename_i hc
      simp only [Bool.and_eq_true, decide_eq_true_eq] at hc
      obtain ⟨⟨⟨h1, h2⟩, h3⟩, h4⟩ := hc
      first
        | (unfold text; rw [List.length_drop, List.length_take]; omega)
        | (obtain ⟨c', hc', _⟩ := utf8_sub hu h3 h4 h1; exact ⟨c', hc'⟩)
    · cases hx

theorem linkStep_panics {e : LinkEnv} {d : TextDoc} (hf : Forgiving e) {cps : List Nat} (hu : Utf8 cps d.text)
    {pre post : List Tok} {t : Tok}
    (hts : tokens ⟨e.uni, d.text, false, e.caseSensitive⟩ (.new 0 .WithinContent) = .ok (pre ++ t :: post))
    {st : LinkState} (hi : LinkInv e d pre st) :
    (∃ er, linkStep e d st t = .error er) ↔ LinkPanics e d.text (pre, t) := by
  have hm : t ∈ pre ++ t :: post := by simp
  have sl := @link_slices _ cps _ hu hts t hm
  have nov : t.type ≠ .AttributeValue → ¬ LinkPanics e d.text (pre, t) := by
    intro hne
    unfold LinkPanics
    rw [isPathValue_type hne, isIdValue_type hne]
    simp
  unfold linkStep
  split
  · rename_i ht
    rw [(sl (.inl ht)).1]
    have := nov (by rw [ht]; simp)
    simp [bind, Except.bind, this]
  · rename_i ht
    rw [(sl (.inr (.inl ht))).1]
    have := nov (by rw [ht]; simp)
    simp [bind, Except.bind, this]
  · rename_i ht
    obtain ⟨s1, s2, cps', hu'⟩ := sl (.inr (.inr ht))
    have hg : Grammatical (pre ++ [t]) := by
      have := tokens_grammatical hts
      rw [show pre ++ t :: post = (pre ++ [t]) ++ post by simp] at this
      exact this.left
    obtain ⟨p, a, w, ep, ha, hw⟩ := hg.value ht
    obtain ⟨attr, hattr⟩ := Option.isSome_iff_exists.1 (hi.opened p a w ep ha hw)
    have hattr2 := hi.attr attr hattr
    rw [hattr]
    have htag2 := hi.tag
    cases htag : st.lastTag with
    | none =>
      rw [htag] at htag2
      have h1 : isPathValue e d.text (pre, t) = false := by unfold isPathValue; simp [← htag2]
      have h2 : isIdValue e d.text (pre, t) = false := by unfold isIdValue; simp [← htag2]
      simp [LinkPanics, h1, h2]
    | some tag =>
      rw [htag] at htag2
      have hpv : isPathValue e d.text (pre, t) = isPathAttribute tag attr := by
        unfold isPathValue; simp [← htag2, hattr2, ht]
      have hid : isIdValue e d.text (pre, t) = decide (attr = b!"id") := by
        unfold isIdValue; simp [← htag2, hattr2, ht]
      dsimp only
      split
      · rename_i hpa
        have hid' : isIdValue e d.text (pre, t) = false := by
          rw [hid, decide_eq_false_iff_not]
          intro he
          rw [he, isPathAttribute_id] at hpa
          cases hpa
        rw [linkPath_panics hf s1 s2 hu']
        unfold LinkPanics
        have hb : st.base = none ↔ baseValue e d.text pre = none := by
          have := hi.baseSome
          cases h1 : st.base <;> cases h2 : baseValue e d.text pre <;> simp_all
        have hn : st.inBase = false ↔ ¬ awaitsBase e d.text pre := by
          rw [← hi.inBase]; simp
        rw [hid', hpv, hpa, hi.inBase, hb, hn, hi.base]
        simp
      · rename_i hpa
        have hpv' : isPathValue e d.text (pre, t) = false := by rw [hpv]; simpa using hpa
        split
        · rename_i he
          unfold linkId LinkPanics
          rw [s1, hpv', hid, decide_eq_true he]
          simp only [bind, Except.bind]
          by_cases hq : LoneQuote (text d.text t)
          · rw [normalizeRef_lone hq]; simp [hq]
          · rw [normalizeRef_utf8 hu' hq]; simp [hq]
        · rename_i he
          simp [LinkPanics, hpv', hid, he]
  · rename_i h1 h2 h3
    have := nov h3
    simp [this]

theorem linkFold_panics {e : LinkEnv} {d : TextDoc} (hf : Forgiving e) {cps : List Nat} (hu : Utf8 cps d.text)
    {pre post : List Tok}
    (hts : tokens ⟨e.uni, d.text, false, e.caseSensitive⟩ (.new 0 .WithinContent) = .ok (pre ++ post))
    {st : LinkState} (hi : LinkInv e d pre st) :
    (∃ er, post.foldlM (linkStep e d) st = .error er) ↔
      ∃ p ∈ splits post, LinkPanics e d.text (pre ++ p.1, p.2) := by
  induction post generalizing pre st with
  | nil => simp [splits, pure, Except.pure]
  | cons t post ih =>
    have hstep := linkStep_panics hf hu hts hi
    have hts' := hts
    rw [show pre ++ t :: post = (pre ++ [t]) ++ post by simp] at hts'
    rw [List.foldlM_cons]
    cases h1 : linkStep e d st t with
    | error er =>
      refine ⟨fun _ => ⟨([], t), by simp [splits], ?_⟩, fun _ => ⟨er, rfl⟩⟩
      rw [List.append_nil]
      exact hstep.1 ⟨er, h1⟩
    | ok st1 =>
      have hg : Grammatical (pre ++ [t]) := (tokens_grammatical hts').left
      have := ih hts' (hi.step hg h1)
      simp only [bind, Except.bind]
      rw [this]
      have hno : ¬ LinkPanics e d.text (pre, t) := by
        rw [← hstep, h1]; simp
      rw [show splits (t :: post) = ([], t) :: (splits post).map (fun p => (t :: p.1, p.2)) from rfl]
      constructor
      · rintro ⟨p, hp, h⟩
        refine ⟨(t :: p.1, p.2), by simp only [List.mem_cons, List.mem_map]; exact .inr ⟨p, hp, rfl⟩, ?_⟩
        simpa using h
      · rintro ⟨p, hp, h⟩
        rw [List.mem_cons, List.mem_map] at hp
        rcases hp with rfl | ⟨q, hq, rfl⟩
        · rw [List.append_nil] at h; exact absurd h hno
        · exact ⟨q, hq, by simpa using h⟩

theorem findDocumentLinks_panics {e : LinkEnv} {d : TextDoc} (hf : Forgiving e) {cps : List Nat} (hu : Utf8 cps d.text)
    {ts : List Tok}
    (hts : tokens ⟨e.uni, d.text, false, e.caseSensitive⟩ (.new 0 .WithinContent) = .ok ts) :
    (∃ er, findDocumentLinks e d = .error er) ↔ ∃ p ∈ splits ts, LinkPanics e d.text p := by
  have h := linkFold_panics hf hu (pre := []) hts (LinkInv.nil e d)
  simp only [List.nil_append] at h
  rw [← h]
  unfold findDocumentLinks
  cases hr : ts.foldlM (linkStep e d) ⟨[], none, none, false, none, []⟩ with
  | error er =>
    refine ⟨fun _ => ⟨er, rfl⟩, fun _ => ?_⟩
    cases hl : linkLoop e d ⟨e.uni, d.text, false, e.caseSensitive⟩ (2 * d.text.length + 2)
      ⟨[], none, none, false, none, []⟩ (.new 0 .WithinContent) with
    | error x => exact ⟨x, rfl⟩
    | ok st =>
      obtain ⟨ts', h1, h2⟩ := linkLoop_ok.1 hl
      have h1 : tokens ⟨e.uni, d.text, false, e.caseSensitive⟩ (.new 0 .WithinContent) = .ok ts' := h1
      rw [hts] at h1
      injection h1 with h1
      subst h1
      rw [hr] at h2
      cases h2
  | ok st =>
    have : linkLoop e d ⟨e.uni, d.text, false, e.caseSensitive⟩ (2 * d.text.length + 2)
        ⟨[], none, none, false, none, []⟩ (.new 0 .WithinContent) = .ok st := linkLoop_ok.2 ⟨ts, hts, hr⟩
    rw [this]
    obtain ⟨links, hl⟩ := mapM_total (f := finishLink e d st.ids) (l := st.links)
      (fun l _ => finishLink_total hf st.ids l)
    simp only [bind, Except.bind]
    rw [hl]
    simp

end Html
