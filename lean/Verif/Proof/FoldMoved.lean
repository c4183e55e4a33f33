import Verif.Proof.Moved
import Verif.Proof.Kept
import Verif.Proof.FoldElements
import Verif.Props.Folding

/-! # Folding ranges of a document behind a complete text -/

namespace Html
open Spec

/-- The stack with the lines moved. -/
def downStack (k : Nat) (st : List (Nat × Str)) : List (Nat × Str) := st.map fun x => (k + x.1, x.2)

theorem popTo_down {k : Nat} {q : Str → Bool} {st : List (Nat × Str)} :
    popTo q (downStack k st) = (popTo q st).map fun r => (k + r.1, downStack k r.2) := by
  induction st with
  | nil => rfl
  | cons x st ih =>
    obtain ⟨l, n⟩ := x
    simp only [downStack, List.map_cons, popTo] at ih ⊢
    split
    · rfl
    · exact ih

theorem popTo_names {q : Str → Bool} {st : List (Nat × Str)} {P : Str → Prop} (h : ∀ x ∈ st, P x.2) {l : Nat} {st' : List (Nat × Str)}
    (hp : popTo q st = some (l, st')) : ∀ x ∈ st', P x.2 := by
  induction st with
  | nil => cases hp
  | cons y st ih =>
    obtain ⟨l', n⟩ := y
    simp only [popTo] at hp
    split at hp
    · cases hp; exact fun x hx => h x (by simp [hx])
    · exact ih (fun x hx => h x (by simp [hx])) hp

theorem popTo_none {q : Str → Bool} {st : List (Nat × Str)} (h : ∀ x ∈ st, q x.2 = false) : popTo q st = none := by
  induction st with
  | nil => rfl
  | cons y st ih =>
    obtain ⟨l', n⟩ := y
    simp only [popTo]
    rw [if_neg (by have := h (l', n) (by simp); simp only at this; rw [this]; decide)]
    exact ih fun x hx => h x (by simp [hx])

/-- The states of folding a document and of folding it behind a text that ends in line `k` and has the ranges `base`. -/
structure FoldDown (k : Nat) (base : List Fold) (f f' : FoldState) : Prop where
  ranges : f'.ranges = base ++ f.ranges.map (Fold.down k)
  stack : f'.stack = downStack k f.stack
  last : f'.lastTag = f.lastTag ∨ (f.lastTag = none ∧ f'.lastTag ≠ some [] ∧ ∀ x ∈ f.stack, x.2 = [])
  prev : f'.prevStart = f.prevStart.map (k + ·) ∨ (f.prevStart = none ∧ ∀ l, f'.prevStart = some l → l < k)

section
variable {k : Nat} {base : List Fold} {f f' : FoldState} {pre : Str} {e : Pos} {d d' : TextDoc} {void : List Str} {u : Uni}

theorem FoldDown.prev_iff (h : FoldDown k base f f') (l : Nat) : f'.prevStart ≠ some (k + l) ↔ f.prevStart ≠ some l := by
  rcases h.prev with h | ⟨h1, h2⟩
  · rw [h]
    cases f.prevStart with
    | none => simp
    | some y => simp only [Option.map_some, ne_eq, Option.some.injEq]; omega
  · rw [h1]
    refine ⟨fun _ => by simp, fun _ h => ?_⟩
    have := h2 _ h
    omega

theorem PutBehind.line (hb : PutBehind pre e d d') (o : Nat) : (d'.posAt (o + pre.length)).line = e.line + (d.posAt o).line := by
  rw [hb.pos]; rfl

theorem FoldDown.close (h : FoldDown e.line base f f') (hb : PutBehind pre e d d') (t : Tok) :
    FoldDown e.line base (foldClose d void f t) (foldClose d' void f' (t.shift pre.length)) := by
  unfold foldClose
  rw [show (t.shift pre.length).type = t.type from rfl, show (t.shift pre.length).stop = t.stop + pre.length from rfl, PutBehind.line hb]
  rcases h.last with hl | ⟨hl, hl', hs⟩
  · rw [hl]
    split
    · rw [h.stack, popTo_down]
      cases hp : popTo (fun name => some name == f.lastTag) f.stack with
      | none => exact h
      | some r =>
        obtain ⟨l, st⟩ := r
        simp only [Option.map_some]
        have hpi := h.prev_iff l
        by_cases hq : (d.posAt t.stop).line > l + 1 ∧ f.prevStart ≠ some l
        · rw [if_pos hq, if_pos ⟨by omega, hpi.2 hq.2⟩]
          refine ⟨?_, rfl, .inl rfl, .inl rfl⟩
          simp only [h.ranges, List.map_append, List.map_cons, List.map_nil, List.append_assoc, Fold.down]
          rw [show e.line + (d.posAt t.stop).line - 1 = e.line + ((d.posAt t.stop).line - 1) by omega]
        · rw [if_neg hq, if_neg (fun hx => hq ⟨by omega, hpi.1 hx.2⟩)]
          exact ⟨h.ranges, rfl, .inl rfl, h.prev⟩
    · exact h
  · have h1 : popTo (fun name => some name == f.lastTag) f.stack = none := by
      apply popTo_none
      intro x _
      rw [hl]; rfl
    have h2 : popTo (fun name => some name == f'.lastTag) f'.stack = none := by
      apply popTo_none
      intro x hx
      rw [h.stack] at hx
      obtain ⟨y, hy, rfl⟩ := List.mem_map.1 hx
      simp only [hs y hy]
      rw [beq_eq_false_iff_ne]
      exact fun hx => hl' hx.symm
    rw [h1, h2]
    simp only [ite_self]
    exact h

theorem FoldDown.comment (h : FoldDown e.line base f f') (hb : PutBehind pre e d d') (t : Tok) (x : Str) :
    FoldDown e.line base (foldComment u d f t x) (foldComment u d' f' (t.shift pre.length) x) := by
  unfold foldComment
  rw [show (t.shift pre.length).offset = t.offset + pre.length from rfl,
    show (t.shift pre.length).stop + 3 = (t.stop + 3) + pre.length by show t.stop + pre.length + 3 = _; omega,
    PutBehind.line hb, PutBehind.line hb]
  dsimp only
  split
  · refine ⟨h.ranges, by rw [h.stack]; rfl, ?_, h.prev⟩
    rcases h.last with hl | ⟨hl, hl', hs⟩
    · exact .inl hl
    · refine .inr ⟨hl, hl', fun y hy => ?_⟩
      rcases List.mem_cons.1 hy with rfl | hy
      · rfl
      · exact hs y hy
  split
  · rw [h.stack, popTo_down]
    cases hp : popTo (·.isEmpty) f.stack with
    | none => exact h
    | some r =>
      obtain ⟨l, st⟩ := r
      simp only [Option.map_some]
      have hpi := h.prev_iff l
      have hlast : f'.lastTag = f.lastTag ∨ (f.lastTag = none ∧ f'.lastTag ≠ some [] ∧ ∀ x ∈ st, x.2 = []) := by
        rcases h.last with hl | ⟨hl, hl', hs⟩
        · exact .inl hl
        · exact .inr ⟨hl, hl', popTo_names (P := (· = [])) hs hp⟩
      by_cases hq : (d.posAt t.offset).line > l ∧ f.prevStart ≠ some l
      · rw [if_pos hq, if_pos ⟨by omega, hpi.2 hq.2⟩]
        refine ⟨?_, rfl, hlast, .inl rfl⟩
        simp only [h.ranges, List.map_append, List.map_cons, List.map_nil, List.append_assoc, Fold.down]
      · rw [if_neg hq, if_neg (fun hx => hq ⟨by omega, hpi.1 hx.2⟩)]
        exact ⟨h.ranges, rfl, hlast, h.prev⟩
  · by_cases hq : (d.posAt t.offset).line < (d.posAt (t.stop + 3)).line
    · rw [if_pos hq, if_pos (by omega)]
      refine ⟨?_, h.stack, h.last, .inl rfl⟩
      simp only [h.ranges, List.map_append, List.map_cons, List.map_nil, List.append_assoc, Fold.down]
    · rw [if_neg hq, if_neg (by omega)]
      exact h

theorem FoldDown.step {g' : FoldState} (h : FoldDown e.line base f f') (hb : PutBehind pre e d d') (t : Tok)
    (hs : foldStep u d' void f' (t.shift pre.length) = .ok g') :
    ∃ g, foldStep u d void f t = .ok g ∧ FoldDown e.line base g g' := by
  unfold foldStep at hs ⊢
  have hsl : sliceStr d'.text (t.shift pre.length).offset (t.shift pre.length).stop = sliceStr d.text t.offset t.stop := by
    rw [hb.text]; exact shift_slice _ _ _
  rw [show (t.shift pre.length).type = t.type from rfl, hsl] at hs
  cases hty : t.type <;> rw [hty] at hs <;> simp only at hs ⊢ <;> first
    | (cases hs; exact ⟨_, rfl, h.close hb t⟩)
    | (cases hs; exact ⟨_, rfl, h⟩)
    | (obtain ⟨x, hx, hs⟩ := bind_ok hs
       rw [hx]
       cases hs
       first
       | exact ⟨_, rfl, h.comment hb t x⟩
       | exact ⟨_, rfl, h.ranges, h.stack, .inl rfl, h.prev⟩
       | exact ⟨_, rfl, h.ranges, by
          rw [h.stack, show (t.shift pre.length).offset = t.offset + pre.length from rfl, PutBehind.line hb]; rfl, .inl rfl, h.prev⟩)

theorem FoldDown.loop {g' : FoldState} {ts : List Tok} (h : FoldDown e.line base f f') (hb : PutBehind pre e d d')
    (hs : (ts.map (Tok.shift pre.length)).foldlM (foldStep u d' void) f' = .ok g') :
    ∃ g, ts.foldlM (foldStep u d void) f = .ok g ∧ FoldDown e.line base g g' := by
  induction ts generalizing f f' with
  | nil => cases hs; exact ⟨f, rfl, h⟩
  | cons t ts ih =>
    rw [List.map_cons] at hs
    obtain ⟨f1', h1, hs⟩ := foldlM_cons_ok hs
    obtain ⟨f1, h2, h3⟩ := h.step hb t h1
    obtain ⟨g, h4, h5⟩ := ih h3 hs
    refine ⟨g, ?_, h5⟩
    rw [List.foldlM_cons, h2]
    exact h4

theorem foldStep_last {g : FoldState} {t : Tok} (h : f.lastTag ≠ some []) (ht : t.offset < t.stop) (hs : foldStep u d void f t = .ok g) :
    g.lastTag ≠ some [] := by
  have hc : (foldClose d void f t).lastTag = f.lastTag := by
    unfold foldClose
    split
    · split
      · rfl
      · dsimp only
        split <;> rfl
    · rfl
  have hk : ∀ x, (foldComment u d f t x).lastTag = f.lastTag := by
    intro x
    unfold foldComment
    dsimp only
    split
    · rfl
    split
    · split
      · rfl
      · split <;> rfl
    · split <;> rfl
  have hn : ∀ x, sliceStr d.text t.offset t.stop = .ok x → x ≠ [] := by
    intro x hx
    obtain ⟨_, h2, _, _, rfl⟩ := sliceStr_ok hx
    intro h0
    have := congrArg List.length h0
    simp only [bytesIn, List.length_drop, List.length_take, List.length_nil] at this
    omega
  unfold foldStep at hs
  cases hty : t.type <;> rw [hty] at hs <;> simp only at hs <;> first
    | (cases hs; rw [hc]; exact h)
    | (cases hs; exact h)
    | (obtain ⟨x, hx, hs⟩ := bind_ok hs
       cases hs
       first
       | (rw [hk]; exact h)
       | exact fun h0 => hn x hx (Option.some.inj h0))

theorem foldlM_last {g : FoldState} {ts : List Tok} (h : f.lastTag ≠ some []) (ht : ∀ t ∈ ts, t.offset < t.stop)
    (hs : ts.foldlM (foldStep u d void) f = .ok g) : g.lastTag ≠ some [] := by
  induction ts generalizing f with
  | nil => cases hs; exact h
  | cons t ts ih =>
    obtain ⟨f1, h1, hs⟩ := foldlM_cons_ok hs
    exact ih (foldStep_last h (ht t (by simp)) h1) (fun x hx => ht x (by simp [hx])) hs

theorem folding_moved {cs : Bool} {d0 : TextDoc} {i : List Tok} {t : Tok} {l' : List Fold} (h0 : d0.text = pre) (hd : Lawful d0)
    (ha : BeginAlike pre d0 d') (hb : PutBehind pre (d0.posAt pre.length) d d')
    (he : EndsBracket ⟨u, pre, false, cs⟩ 0 .WithinContent i t) (hst : t.state = .WithinContent)
    (hbal : Balanced u pre void (i ++ [t])) (h : getFoldingRanges u cs void d' none = .ok l') :
    ∃ l0 l, getFoldingRanges u cs void d0 none = .ok l0 ∧ getFoldingRanges u cs void d none = .ok l ∧
      l' = l0 ++ l.map (Fold.down (d0.posAt pre.length).line) := by
  obtain ⟨x, hx, hw, ho, h1⟩ := he.split
  have hcat := tokens_append (c := ⟨u, pre, false, cs⟩) hw hx d.text (s := .new 0 .WithinContent) ho he.toks h1 he.kind he.nonempty
  unfold getFoldingRanges at h
  obtain ⟨g', hf, h⟩ := bind_ok h
  cases h
  obtain ⟨ts, ht, hm⟩ := foldLoop_ok.1 hf
  have ht : tokens ⟨u, pre ++ d.text, false, cs⟩ (.new 0 .WithinContent) = .ok ts := by rw [hb.text] at ht; exact ht
  change tokens ⟨u, pre ++ d.text, false, cs⟩ (.new 0 .WithinContent) = _ at hcat
  rw [hcat, hst] at ht
  cases hr : tokens { (⟨u, pre, false, cs⟩ : Cfg) with src := d.text } (.new 0 .WithinContent) with
  | error e => rw [hr] at ht; cases ht
  | ok r =>
    rw [hr] at ht
    cases ht
    rw [List.foldlM_append] at hm
    obtain ⟨g0, hg, hm⟩ := bind_ok hm
    obtain ⟨s2, hrun, _⟩ := tokens_run he.toks
    have hk : t.type ≠ .Comment := by
      intro hc
      have := he.kind
      rw [hc] at this
      cases this
    have hin := hrun.inFirst (Nat.zero_le _) hk he.nonempty
    have hg' := foldlM_front ha h0 hin hg
    have hl0 : getFoldingRanges u cs void d0 none = .ok g0.ranges := by
      unfold getFoldingRanges
      have hl : foldLoop ⟨u, d0.text, false, cs⟩ d0 void (2 * d0.text.length + 2) ⟨[], [], none, none⟩ (.new 0 .WithinContent) = .ok g0 := by
        refine foldLoop_ok.2 ⟨i ++ [t], ?_, hg'⟩
        rw [h0]
        exact he.toks
      simp only [hl]
      rfl
    have hprev : PrevOK (⟨[], [], none, none⟩ : FoldState) := fun l h => by cases h
    have hstack : g0.stack = [] := balanced_stack (by rw [h0]; exact hbal) _ _ hprev hg'
    have hok := (foldlM_grow hprev hg').1
    have hlast := foldlM_last (by simp) (Props.C03_tokens_nonempty _ _ _ rfl he.toks) hg'
    obtain ⟨_, _, hj⟩ := Props.C32_ranges_justified u cs void d0 none _ hd hl0
    have hinit : FoldDown (d0.posAt pre.length).line g0.ranges ⟨[], [], none, none⟩ g0 := by
      refine ⟨by simp, hstack, .inr ⟨rfl, hlast, by simp⟩, .inr ⟨rfl, fun l hl => ?_⟩⟩
      obtain ⟨r, hr, rfl⟩ := hok l hl
      have := (hj r hr).2
      rw [h0] at this
      omega
    obtain ⟨g, h3, h4⟩ := hinit.loop hb hm
    refine ⟨g0.ranges, g.ranges, hl0, ?_, h4.ranges⟩
    unfold getFoldingRanges
    have hl : foldLoop ⟨u, d.text, false, cs⟩ d void (2 * d.text.length + 2) ⟨[], [], none, none⟩ (.new 0 .WithinContent) = .ok g :=
      foldLoop_ok.2 ⟨r, hr, h3⟩
    simp only [hl]
    rfl

end

end Html
