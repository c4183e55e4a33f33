import Verif.Proof.ParseConcat
import Verif.Proof.Folding
import Verif.Proof.Symbols
import Verif.Proof.LinkTotal
import Verif.Spec.Behind

/-! # What folding and the outline give for a text stays when more text is put behind it -/

namespace Html
open Spec

/-! ### Folding -/

theorem boundary_front {a y : Str} {i : Nat} (h : isBoundary (a ++ y) i = true) (hi : i ≤ a.length) : isBoundary a i = true := by
  unfold isBoundary at h ⊢
  by_cases he : i = a.length
  · rw [if_pos he]
  · rw [if_neg he]
    rw [if_neg (by simp only [List.length_append]; omega), List.getElem?_append_left (by omega)] at h
    exact h

theorem slice_front {a y r : Str} {s e : Nat} (h : sliceStr (a ++ y) s e = .ok r) (he : e ≤ a.length) : sliceStr a s e = .ok r := by
  unfold sliceStr at h ⊢
  split at h
  · rename_i hx
    simp only [Bool.and_eq_true, decide_eq_true_eq] at hx
    obtain ⟨⟨⟨h1, h2⟩, h3⟩, h4⟩ := hx
    rw [if_pos (by
      simp only [Bool.and_eq_true, decide_eq_true_eq]
      exact ⟨⟨⟨h1, he⟩, boundary_front h3 (by omega)⟩, boundary_front h4 he⟩)]
    cases h
    rw [List.take_append_of_le_length he]
  · cases h

theorem foldClose_ranges (d : TextDoc) (void : List Str) (f : FoldState) (t : Tok) :
    f.ranges <+: (foldClose d void f t).ranges := by
  unfold foldClose
  split
  · split
    · exact List.prefix_refl _
    · dsimp only
      split
      · exact List.prefix_append _ _
      · exact List.prefix_refl _
  · exact List.prefix_refl _

theorem foldComment_ranges (u : Uni) (d : TextDoc) (f : FoldState) (t : Tok) (x : Str) :
    f.ranges <+: (foldComment u d f t x).ranges := by
  unfold foldComment
  dsimp only
  split
  · exact List.prefix_refl _
  · split
    · split
      · exact List.prefix_refl _
      · split
        · exact List.prefix_append _ _
        · exact List.prefix_refl _
    · split
      · exact List.prefix_append _ _
      · exact List.prefix_refl _

theorem foldStep_ranges {u : Uni} {d : TextDoc} {void : List Str} {f g : FoldState} {t : Tok}
    (h : foldStep u d void f t = .ok g) : f.ranges <+: g.ranges := by
  unfold foldStep at h
  split at h
  · obtain ⟨x, _, h⟩ := bind_ok h; cases h; exact List.prefix_refl _
  · obtain ⟨x, _, h⟩ := bind_ok h; cases h; exact List.prefix_refl _
  · cases h; exact foldClose_ranges ..
  · cases h; exact foldClose_ranges ..
  · cases h; exact foldClose_ranges ..
  · obtain ⟨x, _, h⟩ := bind_ok h; cases h; exact foldComment_ranges ..
  · cases h; exact List.prefix_refl _

theorem foldlM_ranges {u : Uni} {d : TextDoc} {void : List Str} {ts : List Tok} {f g : FoldState}
    (h : ts.foldlM (foldStep u d void) f = .ok g) : f.ranges <+: g.ranges := by
  induction ts generalizing f with
  | nil => cases h; exact List.prefix_refl _
  | cons t ts ih =>
    rw [List.foldlM_cons] at h
    obtain ⟨f1, h1, h2⟩ := bind_ok h
    exact (foldStep_ranges h1).trans (ih h2)

/-- The token, and the bytes behind a comment that are looked at, are in the first `n` bytes. -/
def InFirst (n : Nat) (t : Tok) : Prop := t.offset ≤ n ∧ t.stop ≤ n ∧ (t.type = .Comment → t.stop + 3 ≤ n)

theorem foldStep_front {u : Uni} {a : Str} {d d' : TextDoc} {void : List Str} {f g : FoldState} {t : Tok} (hb : BeginAlike a d d')
    (ha : d.text = a) (ht : InFirst a.length t) (h : foldStep u d' void f t = .ok g) : foldStep u d void f t = .ok g := by
  obtain ⟨y, hy⟩ := hb.right
  have hp := hb.pos
  unfold foldStep at h ⊢
  have hsl : ∀ x, sliceStr d'.text t.offset t.stop = .ok x → sliceStr d.text t.offset t.stop = .ok x := by
    intro x hx
    rw [ha]
    rw [hy] at hx
    exact slice_front hx ht.2.1
  have hc : foldClose d' void f t = foldClose d void f t := by
    unfold foldClose
    rw [hp _ ht.2.1]
  cases hty : t.type <;> rw [hty] at h <;> simp only at h ⊢ <;> first
    | exact h
    | (rw [← hc]; exact h)
    | (obtain ⟨x, hx, h⟩ := bind_ok h
       rw [hsl x hx]
       cases h
       first
       | (rw [hp _ ht.1]; rfl)
       | rfl
       | (unfold foldComment
          rw [hp _ ht.1, hp _ (ht.2.2 hty)]
          rfl))

theorem foldlM_front {u : Uni} {a : Str} {d d' : TextDoc} {void : List Str} {ts : List Tok} {f g : FoldState}
    (hb : BeginAlike a d d') (ha : d.text = a) (ht : ∀ t ∈ ts, InFirst a.length t)
    (h : ts.foldlM (foldStep u d' void) f = .ok g) : ts.foldlM (foldStep u d void) f = .ok g := by
  induction ts generalizing f with
  | nil => exact h
  | cons t ts ih =>
    rw [List.foldlM_cons] at h ⊢
    obtain ⟨f1, h1, h2⟩ := bind_ok h
    rw [foldStep_front hb ha (ht t (by simp)) h1]
    exact ih (fun x hx => ht x (by simp [hx])) h2

theorem Step.comment_stop {c : Cfg} {s s' : Sc} (h : Step c s s') (ht : s'.tokenType = .Comment) :
    s'.pos + 3 ≤ c.src.length ∨ s'.pos = c.src.length := by
  cases h with
  | comment h hs hx h0 =>
    have hl : (rest c s).length = c.src.length - s.pos := by simp [rest]
    have hle := untilLit_le b!"-->" (rest c s)
    show s.pos + untilLit b!"-->" (rest c s) + 3 ≤ _ ∨ s.pos + untilLit b!"-->" (rest c s) = _
    by_cases hlt : untilLit b!"-->" (rest c s) < (rest c s).length
    · obtain ⟨z, hz⟩ := prefix_drop (untilLit_prefix hlt)
      have := congrArg List.length hz
      simp only [List.length_drop, List.length_append] at this
      have e : (b!"-->").length = 3 := rfl
      omega
    · omega
  | content _ h hs hx => cases hx <;> cases ht
  | endTag _ h hs hx => cases hx <;> cases ht
  | tag _ h hs hx => cases hx <;> cases ht
  | afterNameTag _ h hs hw h0 hx => cases hx <;> cases ht
  | valueTag _ h hs hw hb h0 h1 hx => cases hx <;> cases ht
  | scriptContent _ h hs hl hx => cases hx <;> cases ht
  | styleContent _ h hs hb h0 hx => cases hx <;> cases ht
  | _ => cases ht

theorem Run.inFirst {c : Cfg} {s s2 : Sc} {i : List Tok} {t : Tok} (h : Run c s (i ++ [t]) s2) (hp : s.pos ≤ c.src.length)
    (hk : t.type ≠ .Comment) (hn : t.offset < t.stop) : ∀ x ∈ i ++ [t], InFirst c.src.length x := by
  obtain ⟨s1, hr1, hr2⟩ := h.split
  obtain ⟨h1, h2, h3, _⟩ := hr1.contiguous hp
  obtain ⟨k1, k2, k3, _⟩ := hr2.contiguous h3
  obtain ⟨e1, e2, e3⟩ := k1
  have e3 : t.stop = s2.pos := e3
  have hle := (contiguous_le h1).2
  intro x hx
  rcases List.mem_append.1 hx with hx | hx
  · have hs := hle x hx
    obtain ⟨q0, q1, hst, hne, rfl⟩ := hr1.mem hx
    have ho := hst.offset_le
    refine ⟨?_, ?_, fun hc => ?_⟩
    · show q1.tokenOffset ≤ _
      have : q1.pos ≤ s1.pos := hs
      omega
    · omega
    · have hs : q1.pos ≤ s1.pos := hs
      show q1.pos + 3 ≤ _
      rcases hst.comment_stop hc with h | h
      · exact h
      · omega
  · rw [List.mem_singleton] at hx
    subst hx
    exact ⟨by omega, by omega, fun hc => absurd hc hk⟩

theorem folding_kept {u : Uni} {cs : Bool} {void : List Str} {a : Str} {d d' : TextDoc} {i : List Tok} {t : Tok} {l' : List Fold}
    (hb : BeginAlike a d d') (ha : d.text = a) (he : EndsBracket ⟨u, a, false, cs⟩ 0 .WithinContent i t)
    (h : getFoldingRanges u cs void d' none = .ok l') : ∃ l, getFoldingRanges u cs void d none = .ok l ∧ l <+: l' := by
  obtain ⟨y, hy⟩ := hb.right
  obtain ⟨x, hx, hw, ho, h1⟩ := he.split
  have hcat := tokens_append (c := ⟨u, a, false, cs⟩) hw hx y (s := .new 0 .WithinContent) ho he.toks h1 he.kind he.nonempty
  unfold getFoldingRanges at h
  obtain ⟨f', hf, h⟩ := bind_ok h
  cases h
  obtain ⟨ts, ht, hm⟩ := foldLoop_ok.1 hf
  have ht : tokens ⟨u, a ++ y, false, cs⟩ (.new 0 .WithinContent) = .ok ts := by rw [hy] at ht; exact ht
  change tokens ⟨u, a ++ y, false, cs⟩ (.new 0 .WithinContent) = _ at hcat
  rw [hcat] at ht
  cases hr : tokens { (⟨u, a, false, cs⟩ : Cfg) with src := y } (.new 0 t.state) with
  | error e => rw [hr] at ht; cases ht
  | ok r =>
    rw [hr] at ht
    cases ht
    rw [List.foldlM_append] at hm
    obtain ⟨g, hg, hm⟩ := bind_ok hm
    obtain ⟨s2, hrun, _⟩ := tokens_run he.toks
    have hk : t.type ≠ .Comment := by
      intro hc
      have := he.kind
      rw [hc] at this
      cases this
    have hin := hrun.inFirst (Nat.zero_le _) hk he.nonempty
    have hg' := foldlM_front hb ha hin hg
    refine ⟨g.ranges, ?_, foldlM_ranges hm⟩
    unfold getFoldingRanges
    have hl : foldLoop ⟨u, d.text, false, cs⟩ d void (2 * d.text.length + 2) ⟨[], [], none, none⟩ (.new 0 .WithinContent) = .ok g := by
      refine foldLoop_ok.2 ⟨i ++ [t], ?_, hg'⟩
      rw [ha]
      exact he.toks
    simp only [hl]
    rfl

/-! ### Symbols -/

theorem symbolOf_front {a : Str} {d d' : TextDoc} (hb : BeginAlike a d d') (n : Node) :
    (∀ m, InForest [n] m → m.start ≤ a.length ∧ m.stop ≤ a.length) → symbolOf d' n = symbolOf d n := by
  induction n using Node.ind with
  | h n ih =>
    intro hm
    have h0 := hm n (.root (by simp))
    unfold symbolOf
    rw [provideSymbolsAll_eq, provideSymbolsAll_eq, hb.pos _ h0.1, hb.pos _ h0.2]
    have : n.children.map (symbolOf d') = n.children.map (symbolOf d) := by
      refine List.map_congr_left (fun m hc => ih m hc (fun k hk => hm k ?_))
      have : ∀ l k, InForest l k → l = [m] → InForest [n] k := by
        intro l k hk
        induction hk with
        | root h => intro e; subst e; simp at h; subst h; exact .child (.root (by simp)) hc
        | child _ h ih => intro e; exact .child (ih e) h
      exact this _ _ hk rfl
    rw [this]

theorem walkAll_append (x y : List Symbol) (p : Option Str) (acc : List FlatSymbol) :
    walkAll (x ++ y) p acc = walkAll y p (walkAll x p acc) := by
  induction x generalizing acc with
  | nil => simp [walkAll]
  | cons s x ih => rw [List.cons_append, walkAll, ih, walkAll]

theorem symbols_kept {u : Uni} {cs : Bool} {void : List Str} {a : Str} {d d' : TextDoc} {roots more : List Node}
    (hb : BeginAlike a d d') (h : parse u cs void a = .ok roots) :
    findDocumentSymbols2 d roots <+: findDocumentSymbols2 d' (roots ++ more) := by
  rw [symbols2_eq, symbols2_eq, List.map_append]
  have : roots.map (symbolOf d') = roots.map (symbolOf d) := by
    refine List.map_congr_left (fun n hn => symbolOf_front hb n (fun m hm => ?_))
    have hf : InForest roots m := by
      have : ∀ l k, InForest l k → l = [n] → InForest roots k := by
        intro l k hk
        induction hk with
        | root h => intro e; subst e; simp at h; subst h; exact .root hn
        | child _ h ih => intro e; exact .child (ih e) h
      exact this _ _ hm rfl
    have hd := parse_done h hf
    have h1 := hd.lt
    have h2 : m.stop ≤ a.length := hd.le
    omega
  rw [this]
  exact List.prefix_append _ _

theorem flat_kept {u : Uni} {cs : Bool} {void : List Str} {a : Str} {d d' : TextDoc} {roots more : List Node}
    (hb : BeginAlike a d d') (h : parse u cs void a = .ok roots) :
    findDocumentSymbols d roots <+: findDocumentSymbols d' (roots ++ more) := by
  have h2 := symbols_kept (more := more) hb h
  unfold findDocumentSymbols
  have e : findDocumentSymbols2 d' (roots ++ more) = findDocumentSymbols2 d roots ++ more.map (symbolOf d') := by
    obtain ⟨z, hz⟩ := h2
    rw [← hz]
    rw [symbols2_eq, symbols2_eq, List.map_append] at hz
    have := List.append_inj hz (by simp)
    rw [this.2]
  rw [e, walkAll_append]
  have := walkAll_eq d' none more (fun n _ acc => walk_eq d' n none acc)
  rw [Option.map_none] at this
  rw [this]
  exact List.prefix_append _ _

end Html
