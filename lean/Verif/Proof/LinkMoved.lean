import Verif.Proof.FoldMoved
import Verif.Proof.LinkTree
import Verif.Proof.LinkTotal
import Verif.Spec.LinkMoved

/-! # Links of a document behind a complete text -/

namespace Html
open Spec

theorem bind_of {α β : Type} {a : R α} {f : α → R β} {x : α} (h : a = .ok x) : (a >>= f) = f x := by rw [h]; rfl

/-- In front of a value there is the name of a start tag. -/
theorem value_tag {c : Cfg} {ts pre post : List Tok} {t : Tok} (h : tokens c (.new 0 .WithinContent) = .ok ts)
    (ht : ts = pre ++ t :: post) (hk : t.type = .AttributeValue) : ∃ z ∈ pre, z.type = .StartTag := by
  have hg := tokens_grammatical h
  have hg' : Grammatical (pre ++ [t]) := Grammatical.left (us := post) (by rw [List.append_assoc]; rw [ht] at hg; exact hg)
  obtain ⟨p, a, w, rfl, ha, _⟩ := hg'.value hk
  obtain ⟨s2, hr, _⟩ := tokens_run h
  have e1 : ts = p ++ a :: (w ++ t :: post) := by rw [ht]; simp
  have hn := hr.has_name (hist := []) (by rintro ⟨p, m, h1, _⟩; simp at h1) e1 ha
  have hm := hg (p, a) (mem_splits.2 ⟨_, e1⟩)
  rw [ha] at hm
  have hm : lastBracket (p.map Tok.type) = some .StartTagOpen := hm
  have hmem : TT.StartTagOpen ∈ p.map Tok.type := (List.mem_filter.1 (List.mem_of_getLast? hm)).1
  obtain ⟨q, m, e2⟩ := List.append_of_mem hmem
  rw [List.nil_append] at hn
  by_cases hx : ∀ k ∈ m, k ≠ TT.StartTag
  · exact absurd ⟨q, m, e2, hx⟩ hn
  · have hx : TT.StartTag ∈ m := Classical.byContradiction fun h0 => hx fun k hk hk' => h0 (hk' ▸ hk)
    have : TT.StartTag ∈ p.map Tok.type := by rw [e2]; simp [hx]
    obtain ⟨z, hz, hzt⟩ := List.mem_map.1 this
    exact ⟨z, by simp [hz], hzt⟩

/-- The link with its range moved. -/
def DocLink.mv (e0 : Pos) (l : DocLink) : DocLink := { l with range := Range.after e0 l.range }

/-- The variables in a document and behind a text that ends at `e0` and has the links `front`. -/
structure LinkDown (e0 : Pos) (front : List DocLink) (st st' : LinkState) : Prop where
  links : st'.links = front ++ st.links.map (DocLink.mv e0)
  tag : ∀ x, st.lastTag = some x → st'.lastTag = some x
  attr : ∀ x, st.lastAttr = some x → st'.lastAttr = some x
  inBase : st'.inBase = st.inBase
  base : st'.base = st.base

section
variable {e : LinkEnv} {e0 : Pos} {front : List DocLink} {st st' : LinkState} {pre : Str} {d d' : TextDoc}

theorem createLink_behind (hb : PutBehind pre e0 d d') (v : Str) (a b : Nat) (hab : 1 ≤ b) (base : Option Str) {r : Option DocLink}
    (h : createLink e d' v (a + pre.length) (b + pre.length) base = .ok r) :
    ∃ r0, createLink e d v a b base = .ok r0 ∧ r = r0.map (DocLink.mv e0) := by
  unfold createLink at h ⊢
  obtain ⟨c, hc, h⟩ := bind_ok h
  simp only [hc]
  show ∃ r0, (if validateRef e.uni c = false then _ else _) = _ ∧ _
  split at h
  · rename_i hv
    rw [if_pos hv]
    cases h
    exact ⟨none, rfl, rfl⟩
  · rename_i hv
    rw [if_neg hv]
    obtain ⟨s, hs, h⟩ := bind_ok h
    obtain ⟨w, hw, h⟩ := bind_ok h
    have hs0 : ∃ s0, linkStop (c.length < v.length) b = .ok s0 ∧ s = s0 + pre.length := by
      unfold linkStop at hs ⊢
      split at hs
      · rename_i hq
        rw [if_pos hq]
        unfold subU at hs ⊢
        rw [if_pos (by omega)] at hs
        rw [if_pos (by omega)]
        cases hs
        exact ⟨_, rfl, by omega⟩
      · rename_i hq
        rw [if_neg hq]
        cases hs
        exact ⟨_, rfl, rfl⟩
    obtain ⟨s0, hs0, rfl⟩ := hs0
    rw [bind_of hs0, bind_of hw]
    cases w with
    | none => cases h; exact ⟨none, rfl, rfl⟩
    | some url =>
      obtain ⟨t, ht, h⟩ := bind_ok h
      cases h
      dsimp only
      rw [bind_of ht]
      refine ⟨_, rfl, ?_⟩
      simp only [Option.map_some, DocLink.mv, Range.after]
      rw [← hb.pos, ← hb.pos]
      by_cases hq : c.length < v.length
      · simp only [if_pos hq]
        rw [show a + pre.length + 1 = a + 1 + pre.length by omega]
      · simp only [if_neg hq]

theorem LinkDown.step {g' : LinkState} (h : LinkDown e0 front st st') (hb : PutBehind pre e0 d d') (t : Tok) (ht : 1 ≤ t.stop)
    (hv : t.type = .AttributeValue → st.lastTag.isSome ∧ st.lastAttr.isSome)
    (hs : linkStep e d' st' (t.shift pre.length) = .ok g') :
    ∃ g, linkStep e d st t = .ok g ∧ LinkDown e0 front g g' := by
  have hsl : sliceStr d'.text (t.shift pre.length).offset (t.shift pre.length).stop = sliceStr d.text t.offset t.stop := by
    rw [hb.text]; exact shift_slice _ _ _
  unfold linkStep at hs ⊢
  rw [show (t.shift pre.length).type = t.type from rfl, hsl] at hs
  cases hty : t.type <;> rw [hty] at hs <;> simp only at hs ⊢ <;> first
    | (cases hs; exact ⟨_, rfl, h⟩)
    | skip
  · obtain ⟨x, hx, hs⟩ := bind_ok hs
    cases hs
    simp only [hx]
    exact ⟨_, rfl, h.links, fun _ hq => hq, h.attr, by rw [h.inBase], h.base⟩
  · obtain ⟨x, hx, hs⟩ := bind_ok hs
    cases hs
    simp only [hx]
    exact ⟨_, rfl, h.links, h.tag, fun _ hq => hq, h.inBase, h.base⟩
  · obtain ⟨h1, h2⟩ := hv hty
    obtain ⟨tag, htag⟩ := Option.isSome_iff_exists.1 h1
    obtain ⟨attr, hattr⟩ := Option.isSome_iff_exists.1 h2
    rw [h.tag _ htag, h.attr _ hattr] at hs
    rw [htag, hattr]
    simp only at hs ⊢
    by_cases hp : isPathAttribute tag attr
    · rw [if_pos hp] at hs ⊢
      unfold linkPath at hs ⊢
      rw [hsl] at hs
      obtain ⟨v, hx, hs⟩ := bind_ok hs
      obtain ⟨ls, hls, hs⟩ := bind_ok hs
      obtain ⟨b, hbs, hs⟩ := bind_ok hs
      cases hs
      have hbs : pathBase e st v = .ok b := by
        unfold pathBase at hbs ⊢
        rw [h.inBase, h.base] at hbs
        exact hbs
      have hl0 : ∃ l0, pathLinks e d st v t = .ok l0 ∧ ls = front ++ l0.map (DocLink.mv e0) := by
        unfold pathLinks at hls ⊢
        rw [h.inBase, h.base] at hls
        by_cases hi : st.inBase
        · rw [if_pos hi] at hls ⊢
          cases hls
          exact ⟨_, rfl, h.links⟩
        · rw [if_neg hi] at hls ⊢
          obtain ⟨r, hr, hls⟩ := bind_ok hls
          obtain ⟨r0, hr0, rfl⟩ := createLink_behind hb v t.offset t.stop ht st.base hr
          simp only [hr0]
          cases r0 with
          | none => cases hls; exact ⟨_, rfl, h.links⟩
          | some l => cases hls; exact ⟨_, rfl, by rw [h.links]; simp⟩
      obtain ⟨l0, hl0, rfl⟩ := hl0
      rw [bind_of hx, bind_of hl0, bind_of hbs]
      exact ⟨_, rfl, rfl, h.tag, (fun _ hq => by cases hq), rfl, rfl⟩
    · rw [if_neg hp] at hs ⊢
      by_cases hi : attr = b!"id"
      · rw [if_pos hi] at hs ⊢
        unfold linkId at hs ⊢
        rw [hsl] at hs
        obtain ⟨v, hx, hs⟩ := bind_ok hs
        obtain ⟨w, hw, hs⟩ := bind_ok hs
        cases hs
        rw [bind_of hx, bind_of hw]
        exact ⟨_, rfl, h.links, h.tag, h.attr, h.inBase, h.base⟩
      · rw [if_neg hi] at hs ⊢
        cases hs
        exact ⟨_, rfl, h⟩

theorem LinkDown.loop {g' : LinkState} {all p ts : List Tok} {c : Cfg} (hall : tokens c (.new 0 .WithinContent) = .ok all)
    (hc : c.src = d.text) (hp : all = p ++ ts) (hi : LinkInv e d p st) (h : LinkDown e0 front st st')
    (hb : PutBehind pre e0 d d') (ht : ∀ t ∈ ts, 1 ≤ t.stop)
    (hs : (ts.map (Tok.shift pre.length)).foldlM (linkStep e d') st' = .ok g') :
    ∃ g, ts.foldlM (linkStep e d) st = .ok g ∧ LinkDown e0 front g g' := by
  induction ts generalizing p st st' with
  | nil => cases hs; exact ⟨st, rfl, h⟩
  | cons t ts ih =>
    rw [List.map_cons] at hs
    obtain ⟨f1', h1, hs⟩ := foldlM_cons_ok hs
    have hg : Grammatical (p ++ [t]) := Grammatical.left (us := ts) (by
      have := tokens_grammatical hall
      rw [hp] at this
      rw [List.append_assoc]; exact this)
    obtain ⟨f1, h2, h3⟩ := h.step hb t (ht t (by simp)) (fun hk => by
      refine ⟨?_, ?_⟩
      · obtain ⟨z, hz, hzt⟩ := value_tag hall hp hk
        rw [hi.tag]
        unfold tagAt lastOf
        rw [Option.isSome_map, List.getLast?_isSome]
        exact fun h0 => List.filter_eq_nil_iff.1 h0 z hz (by simpa using hzt)
      · obtain ⟨q, a, w, e1, ha, hw⟩ := hg.value hk
        exact hi.opened q a w e1 ha hw) h1
    obtain ⟨g, h4, h5⟩ := ih (p := p ++ [t]) (by rw [hp]; simp) (hi.step hg h2) h3 (fun x hx => ht x (by simp [hx])) hs
    refine ⟨g, ?_, h5⟩
    rw [List.foldlM_cons, h2]
    exact h4

/-! ### The text in front -/

theorem createLink_front {a : Str} (hb : BeginAlike a d d') (v : Str) {x y : Nat} (hx : x + 1 ≤ a.length) (hy : y ≤ a.length)
    (base : Option Str) : createLink e d' v x y base = createLink e d v x y base := by
  unfold createLink
  cases normalizeRef v with
  | error _ => rfl
  | ok c =>
    show (if _ then _ else _) = (if _ then _ else _)
    split
    · rfl
    · cases hs : linkStop (c.length < v.length) y with
      | error _ => rfl
      | ok s =>
        have hsl : s ≤ y := by
          unfold linkStop at hs
          split at hs
          · unfold subU at hs
            split at hs
            · cases hs; omega
            · cases hs
          · cases hs; omega
        rw [bind_of (x := s) rfl, bind_of (x := s) rfl]
        cases hw : workspaceUrl e c base with
        | error _ => rfl
        | ok w =>
          cases w with
          | none => rfl
          | some url =>
            rw [bind_of (x := some url) rfl, bind_of (x := some url) rfl]
            dsimp only
            cases cleanUri e.lib url e.uri with
            | error _ => rfl
            | ok t =>
              have h1 := hb.pos s (by omega)
              have h2 := hb.pos (if c.length < v.length then x + 1 else x) (by split <;> omega)
              show Except.ok (some (⟨⟨d'.posAt _, d'.posAt s⟩, t⟩ : DocLink)) = .ok (some ⟨⟨d.posAt _, d.posAt s⟩, t⟩)
              rw [h1, h2]

theorem linkStep_front {a : Str} {f g : LinkState} {t : Tok} (hb : BeginAlike a d d') (ha : d.text = a) (ht : t.stop ≤ a.length)
    (hlt : t.offset < t.stop) (h : linkStep e d' f t = .ok g) : linkStep e d f t = .ok g := by
  obtain ⟨y, hy⟩ := hb.right
  unfold linkStep at h ⊢
  have hsl : ∀ x, sliceStr d'.text t.offset t.stop = .ok x → sliceStr d.text t.offset t.stop = .ok x := by
    intro x hx
    rw [ha]
    rw [hy] at hx
    exact slice_front hx ht
  cases hty : t.type <;> rw [hty] at h <;> simp only at h ⊢ <;> first
    | exact h
    | (obtain ⟨x, hx, h⟩ := bind_ok h
       rw [hsl x hx]
       exact h)
    | skip
  cases htag : f.lastTag with
  | none => rw [htag] at h; exact h
  | some tag =>
    cases hattr : f.lastAttr with
    | none => rw [htag, hattr] at h; exact h
    | some attr =>
      rw [htag, hattr] at h
      simp only at h ⊢
      by_cases hp : isPathAttribute tag attr
      · rw [if_pos hp] at h ⊢
        unfold linkPath at h ⊢
        obtain ⟨v, hx, h⟩ := bind_ok h
        have hpl : pathLinks e d' f v t = pathLinks e d f v t := by
          unfold pathLinks
          rw [createLink_front hb v (by omega) ht]
        rw [hpl] at h
        simp only [hsl v hx]
        exact h
      · rw [if_neg hp] at h ⊢
        by_cases hi : attr = b!"id"
        · rw [if_pos hi] at h ⊢
          unfold linkId at h ⊢
          obtain ⟨v, hx, h⟩ := bind_ok h
          simp only [hsl v hx]
          exact h
        · rw [if_neg hi] at h ⊢
          exact h

theorem linkRun_front {a : Str} {ts : List Tok} {f g : LinkState} (hb : BeginAlike a d d') (ha : d.text = a)
    (ht : ∀ t ∈ ts, t.stop ≤ a.length) (hlt : ∀ t ∈ ts, t.offset < t.stop) (h : ts.foldlM (linkStep e d') f = .ok g) :
    ts.foldlM (linkStep e d) f = .ok g := by
  induction ts generalizing f with
  | nil => exact h
  | cons t ts ih =>
    rw [List.foldlM_cons] at h ⊢
    obtain ⟨f1, h1, h2⟩ := bind_ok h
    rw [linkStep_front hb ha (ht t (by simp)) (hlt t (by simp)) h1]
    exact ih (fun x hx => ht x (by simp [hx])) (fun x hx => hlt x (by simp [hx])) h2

/-! ### Targets -/

theorem finishLink_gives (ids : List (Str × Nat)) {l r : DocLink} (h : finishLink e d ids l = .ok r) :
    r.range = l.range ∧
      (match l.target with
        | none => r.target = none
        | some x => if (e.uri ++ b!"#").isPrefixOf x then InDocument e r.target else r.target = some x) := by
  unfold finishLink at h
  obtain ⟨range, target⟩ := l
  cases target with
  | none => cases h; exact ⟨rfl, rfl⟩
  | some x =>
    dsimp only at h ⊢
    split at h
    · rename_i hp
      rw [if_pos hp]
      split at h
      · rename_i o _
        obtain ⟨y, hy, h⟩ := bind_ok h
        cases h
        refine ⟨rfl, .inr ⟨d.posAt o, ?_⟩⟩
        unfold unwrap UriLib.create at hy
        split at hy
        · rename_i z hz
          cases hy
          split at hz
          · cases hz; rfl
          · cases hz
        · cases hy
      · cases h
        exact ⟨rfl, .inl rfl⟩
    · rename_i hp
      rw [if_neg hp]
      cases h
      exact ⟨rfl, rfl⟩

theorem finish_same {f : Range → Range} {ids ids' : List (Str × Nat)} {l r r' : List DocLink}
    (h : l.mapM (finishLink e d ids) = .ok r)
    (h' : (l.map (fun x => { x with range := f x.range })).mapM (finishLink e d' ids') = .ok r') : SameLinks e f r r' := by
  induction l generalizing r r' with
  | nil => cases h; cases h'; trivial
  | cons x l ih =>
    rw [List.mapM_cons] at h
    rw [List.map_cons, List.mapM_cons] at h'
    obtain ⟨y, hy, h⟩ := bind_ok h
    obtain ⟨ys, hys, h⟩ := bind_ok h
    obtain ⟨z, hz, h'⟩ := bind_ok h'
    obtain ⟨zs, hzs, h'⟩ := bind_ok h'
    cases h
    cases h'
    refine ⟨?_, ih hys hzs⟩
    obtain ⟨a1, a2⟩ := finishLink_gives ids hy
    obtain ⟨b1, b2⟩ := finishLink_gives ids' hz
    refine ⟨by rw [b1, a1], ?_⟩
    obtain ⟨range, target⟩ := x
    cases target with
    | none => exact .inl (b2.trans a2.symm)
    | some t =>
      dsimp only at a2 b2
      split at a2
      · rename_i hp
        rw [if_pos hp] at b2
        exact .inr ⟨a2, b2⟩
      · rename_i hp
        rw [if_neg hp] at b2
        exact .inl (b2.trans a2.symm)

theorem noBase_run {a : List Tok} {f g : LinkState} (hf : f.inBase = false) (hf2 : f.base = none)
    (hn : ∀ t ∈ a, isBaseTag e d.text t = false) (h : a.foldlM (linkStep e d) f = .ok g) : g.inBase = false ∧ g.base = none := by
  induction a generalizing f with
  | nil => cases h; exact ⟨hf, hf2⟩
  | cons t a ih =>
    obtain ⟨f1, h1, h2⟩ := foldlM_cons_ok h
    have : f1.inBase = false ∧ f1.base = none := by
      unfold linkStep at h1
      split at h1
      · rename_i hty
        obtain ⟨x, hx, h1⟩ := bind_ok h1
        cases h1
        refine ⟨?_, hf2⟩
        have := hn t (by simp)
        unfold isBaseTag at this
        rw [← sliceStr_text hx]  at this
        simp [hty] at this
        simp [hf, this]
      · obtain ⟨x, hx, h1⟩ := bind_ok h1
        cases h1
        exact ⟨hf, hf2⟩
      · split at h1
        · split at h1
          · unfold linkPath at h1
            obtain ⟨v, hx, h1⟩ := bind_ok h1
            obtain ⟨ls, hls, h1⟩ := bind_ok h1
            obtain ⟨b, hbs, h1⟩ := bind_ok h1
            cases h1
            unfold pathBase at hbs
            rw [hf, if_neg (by simp)] at hbs
            cases hbs
            exact ⟨rfl, hf2⟩
          · split at h1
            · unfold linkId at h1
              obtain ⟨v, hx, h1⟩ := bind_ok h1
              obtain ⟨w, hw, h1⟩ := bind_ok h1
              cases h1
              exact ⟨hf, hf2⟩
            · cases h1; exact ⟨hf, hf2⟩
        · cases h1; exact ⟨hf, hf2⟩
      · cases h1; exact ⟨hf, hf2⟩
    exact ih this.1 this.2 (fun x hx => hn x (by simp [hx])) h2

theorem links_moved {d0 : TextDoc} {i : List Tok} {t : Tok} {l' : List DocLink} (hf : Forgiving e) (h0 : d0.text = pre)
    (ha : BeginAlike pre d0 d') (hb : PutBehind pre e0 d d')
    (he : EndsBracket ⟨e.uni, pre, false, e.caseSensitive⟩ 0 .WithinContent i t) (hst : t.state = .WithinContent)
    (hn : ∀ x ∈ i ++ [t], isBaseTag e pre x = false) (h : findDocumentLinks e d' = .ok l') :
    ∃ l0 l a b, findDocumentLinks e d0 = .ok l0 ∧ findDocumentLinks e d = .ok l ∧ l' = a ++ b ∧
      SameLinks e (fun r => r) l0 a ∧ SameLinks e (Range.after e0) l b := by
  obtain ⟨x, hx, hw, ho, h1⟩ := he.split
  have hcat := tokens_append (c := ⟨e.uni, pre, false, e.caseSensitive⟩) hw hx d.text (s := .new 0 .WithinContent) ho he.toks h1 he.kind he.nonempty
  unfold findDocumentLinks at h
  obtain ⟨g', hg', h⟩ := bind_ok h
  obtain ⟨ts, ht, hm⟩ := linkLoop_ok.1 hg'
  have ht : tokens ⟨e.uni, pre ++ d.text, false, e.caseSensitive⟩ (.new 0 .WithinContent) = .ok ts := by rw [hb.text] at ht; exact ht
  change tokens ⟨e.uni, pre ++ d.text, false, e.caseSensitive⟩ (.new 0 .WithinContent) = _ at hcat
  rw [hcat, hst] at ht
  cases hr : tokens { (⟨e.uni, pre, false, e.caseSensitive⟩ : Cfg) with src := d.text } (.new 0 .WithinContent) with
  | error e => rw [hr] at ht; cases ht
  | ok r =>
    rw [hr] at ht
    cases ht
    rw [List.foldlM_append] at hm
    obtain ⟨g0, hg, hm⟩ := bind_ok hm
    obtain ⟨s2, hrun, _⟩ := tokens_run he.toks
    have hk : t.type ≠ .Comment := by
      intro hc
      have := he.kind
      rw [hc] at this
      cases this
    have hin := hrun.inFirst (Nat.zero_le _) hk he.nonempty
    have hne := Props.C03_tokens_nonempty _ _ _ rfl he.toks
    have hne2 := Props.C03_tokens_nonempty _ _ _ rfl hr
    have hgf := linkRun_front ha h0 (fun t ht => (hin t ht).2.1) hne hg
    obtain ⟨hb1, hb2⟩ := noBase_run rfl rfl (by rw [h0]; exact hn) hgf
    have hinit : LinkDown e0 g0.links ⟨[], none, none, false, none, []⟩ g0 :=
      ⟨by simp, (fun _ hq => by cases hq), (fun _ hq => by cases hq), hb1, hb2⟩
    obtain ⟨g, h3, h4⟩ := hinit.loop (p := []) hr rfl rfl (LinkInv.nil e d) hb (fun t ht => by have := hne2 t ht; omega) hm
    obtain ⟨l0, hl0⟩ := mapM_total (f := finishLink e d0 g0.ids) (l := g0.links) (fun a _ => finishLink_total hf g0.ids a)
    obtain ⟨l, hl⟩ := mapM_total (f := finishLink e d g.ids) (l := g.links) (fun a _ => finishLink_total hf g.ids a)
    rw [h4.links, List.mapM_append] at h
    obtain ⟨a, ha', h⟩ := bind_ok h
    obtain ⟨b, hb', h⟩ := bind_ok h
    cases h
    refine ⟨l0, l, a, b, ?_, ?_, rfl, finish_same hl0 (by simpa using ha'), finish_same hl hb'⟩
    · unfold findDocumentLinks
      have hl : linkLoop e d0 ⟨e.uni, d0.text, false, e.caseSensitive⟩ (2 * d0.text.length + 2)
          ⟨[], none, none, false, none, []⟩ (.new 0 .WithinContent) = .ok g0 := by
        refine linkLoop_ok.2 ⟨i ++ [t], ?_, hgf⟩
        rw [h0]
        exact he.toks
      simp only [hl]
      exact hl0
    · unfold findDocumentLinks
      have hl' : linkLoop e d ⟨e.uni, d.text, false, e.caseSensitive⟩ (2 * d.text.length + 2)
          ⟨[], none, none, false, none, []⟩ (.new 0 .WithinContent) = .ok g := linkLoop_ok.2 ⟨r, hr, h3⟩
      simp only [hl']
      exact hl

theorem Spec.SameLinks.elsewhere {f : Range → Range} {l r : List DocLink} (h : SameLinks e f l r)
    (hn : ∀ x ∈ l, ¬ InDocument e x.target) : r = l.map (fun x => { x with range := f x.range }) := by
  induction l generalizing r with
  | nil => cases r with
    | nil => rfl
    | cons => cases h
  | cons x l ih => cases r with
    | nil => cases h
    | cons y r =>
      obtain ⟨⟨h1, h2⟩, h3⟩ := h
      rw [List.map_cons, ih h3 (fun z hz => hn z (by simp [hz]))]
      rcases h2 with h2 | ⟨h2, _⟩
      · obtain ⟨a, b⟩ := y
        cases h1; cases h2; rfl
      · exact absurd h2 (hn x (by simp))

end

end Html
