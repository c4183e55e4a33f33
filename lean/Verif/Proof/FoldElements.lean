import Verif.Proof.Folding

/-! # Folding ranges: elements are found -/

namespace Html
open Spec

/-- Ranges are only added, and `prevStart` is the first line of one of them. -/
def PrevOK (f : FoldState) : Prop := ∀ l, f.prevStart = some l → ∃ r ∈ f.ranges, r.startLine = l

theorem PrevOK.push {f : FoldState} {r : Fold} {st : List (Nat × Str)} {lt : Option Str} :
    PrevOK ⟨f.ranges ++ [r], st, lt, some r.startLine⟩ := by
  intro l hl
  cases hl
  exact ⟨r, by simp, rfl⟩

theorem foldClose_grow {d : TextDoc} {void : List Str} {f : FoldState} {t : Tok} (h : PrevOK f) :
    PrevOK (foldClose d void f t) ∧ ∀ r ∈ f.ranges, r ∈ (foldClose d void f t).ranges := by
  unfold foldClose
  split
  · split
    · exact ⟨h, fun _ h => h⟩
    · simp only
      split
      · exact ⟨PrevOK.push (f := f) (r := ⟨_, _, _⟩), fun r hr => List.mem_append_left _ hr⟩
      · exact ⟨h, fun _ h => h⟩
  · exact ⟨h, fun _ h => h⟩

theorem foldComment_grow {u : Uni} {d : TextDoc} {f : FoldState} {t : Tok} {x : Str} (h : PrevOK f) :
    PrevOK (foldComment u d f t x) ∧ ∀ r ∈ f.ranges, r ∈ (foldComment u d f t x).ranges := by
  unfold foldComment
  simp only
  split
  · exact ⟨h, fun _ h => h⟩
  · split
    · split
      · exact ⟨h, fun _ h => h⟩
      · split
        · exact ⟨PrevOK.push (f := f) (r := ⟨_, _, _⟩), fun r hr => List.mem_append_left _ hr⟩
        · exact ⟨h, fun _ h => h⟩
    · split
      · exact ⟨PrevOK.push (f := f) (r := ⟨_, _, _⟩), fun r hr => List.mem_append_left _ hr⟩
      · exact ⟨h, fun _ h => h⟩

theorem foldStep_grow {u : Uni} {d : TextDoc} {void : List Str} {f f' : FoldState} {t : Tok} (h : PrevOK f)
    (hs : foldStep u d void f t = .ok f') : PrevOK f' ∧ ∀ r ∈ f.ranges, r ∈ f'.ranges := by
  unfold foldStep at hs
  split at hs
  · obtain ⟨x, _, hs⟩ := bind_ok hs; cases hs; exact ⟨h, fun _ h => h⟩
  · obtain ⟨x, _, hs⟩ := bind_ok hs; cases hs; exact ⟨h, fun _ h => h⟩
  · cases hs; exact foldClose_grow h
  · cases hs; exact foldClose_grow h
  · cases hs; exact foldClose_grow h
  · obtain ⟨x, _, hs⟩ := bind_ok hs; cases hs; exact foldComment_grow h
  · cases hs; exact ⟨h, fun _ h => h⟩

theorem foldlM_grow {u : Uni} {d : TextDoc} {void : List Str} {f f' : FoldState} {ts : List Tok} (h : PrevOK f)
    (hs : ts.foldlM (foldStep u d void) f = .ok f') : PrevOK f' ∧ ∀ r ∈ f.ranges, r ∈ f'.ranges := by
  induction ts generalizing f with
  | nil => cases hs; exact ⟨h, fun _ h => h⟩
  | cons t ts ih =>
    rw [List.foldlM_cons] at hs
    obtain ⟨f1, h1, h2⟩ := bind_ok hs
    obtain ⟨h3, h4⟩ := foldStep_grow h h1
    obtain ⟨h5, h6⟩ := ih h3 h2
    exact ⟨h5, fun r hr => h6 r (h4 r hr)⟩

theorem foldlM_append_ok {α β : Type} {g : β → α → R β} {l l' : List α} {f f' : β}
    (h : (l ++ l').foldlM g f = .ok f') : ∃ f1, l.foldlM g f = .ok f1 ∧ l'.foldlM g f1 = .ok f' := by
  rw [List.foldlM_append] at h
  exact bind_ok h

theorem foldlM_cons_ok {α β : Type} {g : β → α → R β} {a : α} {l' : List α} {f f' : β}
    (h : (a :: l').foldlM g f = .ok f') : ∃ f1, g f a = .ok f1 ∧ l'.foldlM g f1 = .ok f' := by
  rw [List.foldlM_cons] at h
  exact bind_ok h

theorem neutral_step {u : Uni} {d : TextDoc} {void : List Str} {f f' : FoldState} {t : Tok}
    (hn : Neutral u d.text t) (hs : foldStep u d void f t = .ok f') :
    f'.stack = f.stack ∧ f'.lastTag = f.lastTag := by
  obtain ⟨h1, h2, h3, h4, h5, h6⟩ := hn
  unfold foldStep at hs
  split at hs
  · contradiction
  · contradiction
  · contradiction
  · contradiction
  · contradiction
  · rename_i hc
    obtain ⟨x, hx, hs⟩ := bind_ok hs
    obtain ⟨_, _, _, _, rfl⟩ := sliceStr_ok hx
    cases hs
    obtain ⟨h7, h8⟩ := h6 hc
    unfold foldComment
    simp only
    split
    · rename_i h9; exact absurd (isRegionStart_spec h9) h7
    · split
      · rename_i h9; exact absurd (isRegionEnd_iff.1 h9) h8
      · split <;> exact ⟨rfl, rfl⟩
  · cases hs; exact ⟨rfl, rfl⟩

theorem neutral_run {u : Uni} {d : TextDoc} {void : List Str} {f f' : FoldState} {ts : List Tok}
    (hn : ∀ t ∈ ts, Neutral u d.text t) (hs : ts.foldlM (foldStep u d void) f = .ok f') :
    f'.stack = f.stack ∧ f'.lastTag = f.lastTag := by
  induction ts generalizing f with
  | nil => cases hs; exact ⟨rfl, rfl⟩
  | cons t ts ih =>
    obtain ⟨f1, h1, h2⟩ := foldlM_cons_ok hs
    obtain ⟨h3, h4⟩ := neutral_step (hn t (by simp)) h1
    obtain ⟨h5, h6⟩ := ih (fun t ht => hn t (List.mem_cons_of_mem _ ht)) h2
    exact ⟨h5.trans h3, h6.trans h4⟩

theorem startTag_step {u : Uni} {d : TextDoc} {void : List Str} {f f' : FoldState} {t : Tok}
    (ht : t.type = .StartTag) (hs : foldStep u d void f t = .ok f') :
    f'.stack = ((d.posAt t.offset).line, text d.text t) :: f.stack ∧ f'.lastTag = some (text d.text t) := by
  unfold foldStep at hs
  rw [ht] at hs
  obtain ⟨x, hx, hs⟩ := bind_ok hs
  obtain ⟨_, _, _, _, rfl⟩ := sliceStr_ok hx
  cases hs
  exact ⟨rfl, rfl⟩

theorem endTag_step {u : Uni} {d : TextDoc} {void : List Str} {f f' : FoldState} {t : Tok}
    (ht : t.type = .EndTag) (hs : foldStep u d void f t = .ok f') :
    f'.stack = f.stack ∧ f'.lastTag = some (text d.text t) := by
  unfold foldStep at hs
  rw [ht] at hs
  obtain ⟨x, hx, hs⟩ := bind_ok hs
  obtain ⟨_, _, _, _, rfl⟩ := sliceStr_ok hx
  cases hs
  exact ⟨rfl, rfl⟩

/-- The token that ends the element whose entry is on the top of the stack. -/
theorem close_step {u : Uni} {d : TextDoc} {void : List Str} {f f' : FoldState} {t : Tok} {l : Nat} {x : Str}
    {st : List (Nat × Str)} (hp : PrevOK f) (hstack : f.stack = (l, x) :: st) (hlast : f.lastTag = some x)
    (ht : t.type = .EndTagClose ∨ t.type = .StartTagSelfClose ∨ (t.type = .StartTagClose ∧ x ∈ void))
    (hs : foldStep u d void f t = .ok f') :
    f'.stack = st ∧ ((d.posAt t.stop).line > l + 1 → ∃ r ∈ f'.ranges, r.startLine = l) := by
  have h1 : f' = foldClose d void f t := by
    unfold foldStep at hs
    rcases ht with ht | ht | ⟨ht, _⟩ <;> rw [ht] at hs <;> cases hs <;> rfl
  subst h1
  unfold foldClose
  rw [if_pos (by
    rcases ht with ht | ht | ⟨_, ht⟩
    · left; rw [ht]; decide
    · left; rw [ht]; decide
    · right; rw [hlast]; simpa using ht)]
  have h2 : popTo (fun name => some name == f.lastTag) f.stack = some (l, st) := by
    rw [hstack, hlast]; simp [popTo]
  rw [h2]
  simp only
  split
  · exact ⟨rfl, fun _ => ⟨_, List.mem_append_right _ (List.mem_singleton.2 rfl), rfl⟩⟩
  · rename_i hc
    refine ⟨rfl, fun hl => hp l ?_⟩
    exact Decidable.byContradiction (fun h => hc ⟨hl, h⟩)

theorem open_step {u : Uni} {d : TextDoc} {void : List Str} {f f' : FoldState} {t : Tok} {x : Str}
    (hlast : f.lastTag = some x) (ht : t.type = .StartTagClose) (hx : x ∉ void)
    (hs : foldStep u d void f t = .ok f') : f' = f := by
  unfold foldStep at hs
  rw [ht] at hs
  cases hs
  unfold foldClose
  rw [if_neg (by rw [ht, hlast]; simpa using hx)]

theorem empty_run {u : Uni} {d : TextDoc} {void : List Str} {f f' : FoldState} {a c : Tok} {as ts : List Tok}
    (hp : PrevOK f) (ha : a.type = .StartTag) (has : ∀ t ∈ as, Neutral u d.text t)
    (hc : c.type = .StartTagSelfClose ∨ (c.type = .StartTagClose ∧ text d.text a ∈ void))
    (hs : (a :: (as ++ c :: ts)).foldlM (foldStep u d void) f = .ok f') :
    ∃ f1, ts.foldlM (foldStep u d void) f1 = .ok f' ∧ PrevOK f1 ∧ f1.stack = f.stack ∧
      ((d.posAt c.stop).line > (d.posAt a.offset).line + 1 →
        ∃ r ∈ f1.ranges, r.startLine = (d.posAt a.offset).line) := by
  obtain ⟨f1, h1, hs⟩ := foldlM_cons_ok hs
  obtain ⟨p1, -⟩ := foldStep_grow hp h1
  obtain ⟨s1, l1⟩ := startTag_step ha h1
  obtain ⟨f2, h2, hs⟩ := foldlM_append_ok hs
  obtain ⟨p2, -⟩ := foldlM_grow p1 h2
  obtain ⟨s2, l2⟩ := neutral_run has h2
  obtain ⟨f3, h3, hs⟩ := foldlM_cons_ok hs
  obtain ⟨p3, -⟩ := foldStep_grow p2 h3
  obtain ⟨s3, r3⟩ := close_step p2 (by rw [s2, s1]) (by rw [l2, l1]) (.inr hc) h3
  exact ⟨f3, hs, p3, s3, r3⟩

theorem pair_run {u : Uni} {d : TextDoc} {void : List Str} {f f' : FoldState} {a b c e : Tok}
    {as bs body ts : List Tok}
    (hp : PrevOK f) (ha : a.type = .StartTag) (has : ∀ t ∈ as, Neutral u d.text t)
    (hc : c.type = .StartTagClose) (hv : text d.text a ∉ void)
    (hbody : ∀ g g' : FoldState, PrevOK g → body.foldlM (foldStep u d void) g = .ok g' → g'.stack = g.stack)
    (hb : b.type = .EndTag) (hba : text d.text b = text d.text a) (hbs : ∀ t ∈ bs, Neutral u d.text t)
    (he : e.type = .EndTagClose)
    (hs : (a :: (as ++ c :: (body ++ b :: (bs ++ e :: ts)))).foldlM (foldStep u d void) f = .ok f') :
    ∃ f1, ts.foldlM (foldStep u d void) f1 = .ok f' ∧ PrevOK f1 ∧ f1.stack = f.stack ∧
      ((d.posAt e.stop).line > (d.posAt a.offset).line + 1 →
        ∃ r ∈ f1.ranges, r.startLine = (d.posAt a.offset).line) := by
  obtain ⟨f1, h1, hs⟩ := foldlM_cons_ok hs
  obtain ⟨p1, -⟩ := foldStep_grow hp h1
  obtain ⟨s1, l1⟩ := startTag_step ha h1
  obtain ⟨f2, h2, hs⟩ := foldlM_append_ok hs
  obtain ⟨p2, -⟩ := foldlM_grow p1 h2
  obtain ⟨s2, l2⟩ := neutral_run has h2
  obtain ⟨f3, h3, hs3⟩ := foldlM_cons_ok hs
  rw [open_step (by rw [l2, l1]) hc hv h3] at hs3
  obtain ⟨f4, h4, hs⟩ := foldlM_append_ok hs3
  obtain ⟨p4, -⟩ := foldlM_grow p2 h4
  have s4 := hbody _ _ p2 h4
  obtain ⟨f5, h5, hs⟩ := foldlM_cons_ok hs
  obtain ⟨p5, -⟩ := foldStep_grow p4 h5
  obtain ⟨s5, l5⟩ := endTag_step hb h5
  obtain ⟨f6, h6, hs⟩ := foldlM_append_ok hs
  obtain ⟨p6, -⟩ := foldlM_grow p5 h6
  obtain ⟨s6, l6⟩ := neutral_run hbs h6
  obtain ⟨f7, h7, hs⟩ := foldlM_cons_ok hs
  obtain ⟨p7, -⟩ := foldStep_grow p6 h7
  obtain ⟨s7, r7⟩ := close_step p6 (by rw [s6, s5, s4, s2, s1]) (by rw [l6, l5, hba]) (.inl he) h7
  exact ⟨f7, hs, p7, s7, r7⟩

theorem region_run {u : Uni} {d : TextDoc} {void : List Str} {f f' : FoldState} {a b : Tok} {body ts : List Tok}
    (hp : PrevOK f) (hr : RegionToks u d.text a b)
    (hbody : ∀ g g' : FoldState, PrevOK g → body.foldlM (foldStep u d void) g = .ok g' → g'.stack = g.stack)
    (hs : (a :: (body ++ b :: ts)).foldlM (foldStep u d void) f = .ok f') :
    ∃ f1, ts.foldlM (foldStep u d void) f1 = .ok f' ∧ PrevOK f1 ∧ f1.stack = f.stack ∧
      ((d.posAt b.offset).line > (d.posAt a.offset).line →
        ∃ r ∈ f1.ranges, r.startLine = (d.posAt a.offset).line) := by
  obtain ⟨a1, a2, b1, b2, b3⟩ := hr
  obtain ⟨f1, h1, hs⟩ := foldlM_cons_ok hs
  obtain ⟨p1, -⟩ := foldStep_grow hp h1
  have s1 : f1.stack = ((d.posAt a.offset).line, []) :: f.stack := by
    unfold foldStep at h1
    rw [a1] at h1
    obtain ⟨x, hx, h1⟩ := bind_ok h1
    obtain ⟨_, _, _, _, rfl⟩ := sliceStr_ok hx
    cases h1
    unfold foldComment
    simp only
    rw [if_pos (show isRegionStart u (bytesIn d.text a.offset a.stop) = true from isRegionStart_of a2)]
  obtain ⟨f2, h2, hs⟩ := foldlM_append_ok hs
  obtain ⟨p2, -⟩ := foldlM_grow p1 h2
  have s2 := hbody _ _ p1 h2
  rw [s1] at s2
  obtain ⟨f3, h3, hs⟩ := foldlM_cons_ok hs
  obtain ⟨p3, -⟩ := foldStep_grow p2 h3
  refine ⟨f3, hs, p3, ?_⟩
  unfold foldStep at h3
  rw [b1] at h3
  obtain ⟨x, hx, h3⟩ := bind_ok h3
  obtain ⟨_, _, _, _, rfl⟩ := sliceStr_ok hx
  cases h3
  have e1 : popTo (·.isEmpty) f2.stack = some ((d.posAt a.offset).line, f.stack) := by rw [s2]; simp [popTo]
  unfold foldComment
  simp only
  rw [if_neg (show ¬ isRegionStart u (bytesIn d.text b.offset b.stop) = true from fun h => b3 (isRegionStart_spec h)),
    if_pos (show isRegionEnd u (bytesIn d.text b.offset b.stop) = true from isRegionEnd_iff.2 b2), e1]
  simp only
  split
  · exact ⟨rfl, fun _ => ⟨_, List.mem_append_right _ (List.mem_singleton.2 rfl), rfl⟩⟩
  · rename_i hc
    refine ⟨rfl, fun hl => p2 _ ?_⟩
    exact Decidable.byContradiction (fun h => hc ⟨hl, h⟩)

theorem balanced_stack {u : Uni} {d : TextDoc} {void : List Str} {ts : List Tok}
    (h : Balanced u d.text void ts) : ∀ f f' : FoldState, PrevOK f →
    ts.foldlM (foldStep u d void) f = .ok f' → f'.stack = f.stack := by
  induction h with
  | nil => intro f f' _ hs; cases hs; rfl
  | skip hn _ ih =>
    intro f f' hp hs
    obtain ⟨f1, h1, hs⟩ := foldlM_cons_ok hs
    exact (ih _ _ (foldStep_grow hp h1).1 hs).trans (neutral_step hn h1).1
  | empty ha has hc _ ih =>
    intro f f' hp hs
    obtain ⟨f1, h1, p1, s1, _⟩ := empty_run hp ha has hc hs
    exact (ih _ _ p1 h1).trans s1
  | pair ha has hc hv _ hb hba hbs he _ ih1 ih2 =>
    intro f f' hp hs
    obtain ⟨f1, h1, p1, s1, _⟩ := pair_run hp ha has hc hv ih1 hb hba hbs he hs
    exact (ih2 _ _ p1 h1).trans s1
  | region hr _ _ ih1 ih2 =>
    intro f f' hp hs
    obtain ⟨f1, h1, p1, s1, _⟩ := region_run hp hr ih1 hs
    exact (ih2 _ _ p1 h1).trans s1

theorem region_found {u : Uni} {d : TextDoc} {void : List Str} {pre body post : List Tok} {f' : FoldState}
    {a b : Tok} (hr : RegionToks u d.text a b) (hb : Balanced u d.text void body)
    (hline : (d.posAt b.offset).line > (d.posAt a.offset).line)
    (hs : (pre ++ a :: (body ++ b :: post)).foldlM (foldStep u d void) ⟨[], [], none, none⟩ = .ok f') :
    ∃ r ∈ f'.ranges, r.startLine = (d.posAt a.offset).line := by
  obtain ⟨f1, h1, hs⟩ := foldlM_append_ok hs
  obtain ⟨p1, -⟩ := foldlM_grow (fun l h => by cases h) h1
  obtain ⟨f2, h3, p2, _, h4⟩ := region_run p1 hr (balanced_stack hb) hs
  obtain ⟨r, hr, hr2⟩ := h4 hline
  exact ⟨r, (foldlM_grow p2 h3).2 r hr, hr2⟩

theorem element_found {u : Uni} {d : TextDoc} {void : List Str} {pre l post : List Tok} {f' : FoldState}
    {a e : Tok} (hl : ElementToks u d.text void (Balanced u d.text void) l) (ha : l.head? = some a)
    (he : l.getLast? = some e)
    (hline : (d.posAt e.stop).line > (d.posAt a.offset).line + 1)
    (hs : (pre ++ (l ++ post)).foldlM (foldStep u d void) ⟨[], [], none, none⟩ = .ok f') :
    ∃ r ∈ f'.ranges, r.startLine = (d.posAt a.offset).line := by
  obtain ⟨f1, h1, hs⟩ := foldlM_append_ok hs
  obtain ⟨p1, -⟩ := foldlM_grow (fun l h => by cases h) h1
  obtain ⟨a', as, c, ha1, has, h2 | h2⟩ := hl
  · obtain ⟨rfl, hc⟩ := h2
    cases ha
    have : e = c := by
      rw [← List.cons_append, List.getLast?_concat] at he
      exact (Option.some.inj he).symm
    subst this
    have hs : (a :: (as ++ e :: post)).foldlM (foldStep u d void) f1 = .ok f' := by simpa using hs
    obtain ⟨f2, h3, p2, _, h4⟩ := empty_run p1 ha1 has hc hs
    obtain ⟨r, hr, hr2⟩ := h4 hline
    exact ⟨r, (foldlM_grow p2 h3).2 r hr, hr2⟩
  · obtain ⟨body, b, bs, e', rfl, hc, hv, hbal, hb, hba, hbs, he'⟩ := h2
    cases ha
    have : e = e' := by
      have e1 : a :: (as ++ c :: (body ++ b :: (bs ++ [e']))) = (a :: as ++ c :: body ++ b :: bs) ++ [e'] := by simp
      rw [e1, List.getLast?_concat] at he
      exact (Option.some.inj he).symm
    subst this
    have hs : (a :: (as ++ c :: (body ++ b :: (bs ++ e :: post)))).foldlM (foldStep u d void) f1 = .ok f' := by
      simpa using hs
    obtain ⟨f2, h3, p2, _, h4⟩ := pair_run p1 ha1 has hc hv (balanced_stack hbal) hb hba hbs he' hs
    obtain ⟨r, hr, hr2⟩ := h4 hline
    exact ⟨r, (foldlM_grow p2 h3).2 r hr, hr2⟩

end Html
