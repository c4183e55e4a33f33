import Verif.Spec.Folding
import Verif.Proof.Tile
import Verif.Proof.TextDocument

/-! # Folding ranges: the loop over the tokens -/

namespace Html
open Spec

/-- The loop over the scanner is the fold over the token list. -/
theorem foldLoop_ok {c : Cfg} {d : TextDoc} {void : List Str} {fuel : Nat} {f r : FoldState} {s : Sc} :
    foldLoop c d void fuel f s = .ok r ↔
      ∃ ts, tokensF c fuel s = .ok ts ∧ ts.foldlM (foldStep c.uni d void) f = .ok r := by
  induction fuel generalizing f s with
  | zero => simp [foldLoop, tokensF]
  | succ n ih =>
    unfold foldLoop tokensF
    cases h1 : scan c s with
    | error e => simp [bind, Except.bind]
    | ok s1 =>
      simp only [bind, Except.bind]
      split
      · simp [pure, Except.pure]
      · constructor
        · intro h
          cases h2 : foldStep c.uni d void f s1.tok with
          | error e => rw [h2] at h; cases h
          | ok f1 =>
            rw [h2] at h
            obtain ⟨ts, h3, h4⟩ := ih.1 h
            refine ⟨s1.tok :: ts, by rw [h3]; rfl, ?_⟩
            rw [List.foldlM_cons, h2]; exact h4
        · rintro ⟨ts, h3, h4⟩
          cases h5 : tokensF c n s1 with
          | error e => rw [h5] at h3; cases h3
          | ok ts' =>
            rw [h5] at h3
            cases h3
            rw [List.foldlM_cons] at h4
            cases h2 : foldStep c.uni d void f s1.tok with
            | error e => rw [h2] at h4; cases h4
            | ok f1 => rw [h2] at h4; exact ih.2 ⟨ts', h5, h4⟩

theorem wordAhead_false {u : Uni} {r : Str} : wordAhead u r = false ↔ WordEnds u r := by
  unfold wordAhead WordEnds
  cases r <;> simp

theorem isRegionStart_of {u : Uni} {x : Str} (h : RegionStart u x) : isRegionStart u x = true := by
  obtain ⟨ws, r, h1, h2, h3⟩ := h
  unfold isRegionStart
  have e : x.drop (runLen isSpaceCP x) = b!"#region" ++ r := by
    rw [← h2]
    conv => lhs; rw [h1, List.append_assoc]
    exact List.drop_left
  simp only [Bool.and_eq_true, Bool.not_eq_true']
  rw [e]
  exact ⟨by rw [List.isPrefixOf_iff_prefix]; exact ⟨r, rfl⟩, wordAhead_false.2 h3⟩

theorem isRegionStart_spec {u : Uni} {x : Str} (h : isRegionStart u x = true) : RegionStart u x := by
  unfold isRegionStart at h
  simp only [Bool.and_eq_true, Bool.not_eq_true'] at h
  obtain ⟨h1, h2⟩ := h
  rw [List.isPrefixOf_iff_prefix] at h1
  obtain ⟨r, hr⟩ := h1
  refine ⟨x.take (runLen isSpaceCP x), r, ?_, ?_, ?_⟩
  · rw [List.append_assoc, hr, List.take_append_drop]
  · rw [List.length_take]
    have := congrArg List.length hr
    simp at this
    omega
  · rw [← hr] at h2; exact wordAhead_false.1 h2

theorem isRegionEnd_iff {u : Uni} {x : Str} : isRegionEnd u x = true ↔ RegionEnd u x := by
  induction x with
  | nil =>
    constructor
    · intro h; cases h
    · rintro ⟨p, r, h, _⟩
      have := congrArg List.length h
      simp at this
  | cons b t ih =>
    unfold isRegionEnd
    rw [Bool.or_eq_true, ih]
    constructor
    · rintro (h | ⟨p, r, h, h2⟩)
      · simp only [Bool.and_eq_true, Bool.not_eq_true'] at h
        obtain ⟨h1, h2⟩ := h
        rw [List.isPrefixOf_iff_prefix] at h1
        obtain ⟨r, hr⟩ := h1
        refine ⟨[], r, hr.symm, ?_⟩
        rw [← hr] at h2; exact wordAhead_false.1 h2
      · exact ⟨b :: p, r, by rw [h]; rfl, h2⟩
    · rintro ⟨p, r, h, h2⟩
      cases p with
      | nil =>
        left
        rw [h]
        simp only [List.nil_append, Bool.and_eq_true, Bool.not_eq_true']
        exact ⟨by rw [List.isPrefixOf_iff_prefix]; exact ⟨r, rfl⟩, wordAhead_false.2 h2⟩
      | cons b' p =>
        right
        simp only [List.cons_append, List.cons.injEq] at h
        exact ⟨p, r, h.2, h2⟩

theorem popTo_some {p : Str → Bool} {st st' : List (Nat × Str)} {l : Nat} (h : popTo p st = some (l, st')) :
    ∃ name, p name = true ∧ (l, name) ∈ st ∧ ∀ e ∈ st', e ∈ st := by
  induction st with
  | nil => cases h
  | cons e st ih =>
    obtain ⟨line, name⟩ := e
    unfold popTo at h
    split at h
    · cases h
      exact ⟨name, by assumption, by simp, fun e he => List.mem_cons_of_mem _ he⟩
    · obtain ⟨n, h1, h2, h3⟩ := ih h
      exact ⟨n, h1, List.mem_cons_of_mem _ h2, fun e he => List.mem_cons_of_mem _ (h3 e he)⟩

/-- What the entries of the stack stand for. -/
def FoldEntry (u : Uni) (d : TextDoc) (ts : List Tok) (e : Nat × Str) : Prop :=
  ∃ pre a mid, ts = pre ++ a :: mid ∧ e.1 = (d.posAt a.offset).line ∧
    ((e.2 ≠ [] ∧ a.type = .StartTag ∧ text d.text a = e.2) ∨
     (e.2 = [] ∧ a.type = .Comment ∧ RegionStart u (text d.text a)))

structure FoldInv (u : Uni) (d : TextDoc) (void : List Str) (ts : List Tok) (f : FoldState) : Prop where
  stack : ∀ e ∈ f.stack, FoldEntry u d ts e
  last : f.lastTag = lastName d.text ts
  ranges : ∀ r ∈ f.ranges, Justified u d void ts r ∧ r.startLine < r.endLine ∧
    r.endLine ≤ (d.posAt d.text.length).line
  comments : ∀ a ∈ ts, a.type = .Comment → isRegionStart u (text d.text a) = false →
    ¬ RegionEnd u (text d.text a) → (d.posAt a.offset).line < (d.posAt (a.stop + 3)).line →
    ⟨(d.posAt a.offset).line, (d.posAt (a.stop + 3)).line, some .comment⟩ ∈ f.ranges

theorem Spec.Justified.snoc {u : Uni} {d : TextDoc} {void : List Str} {ts : List Tok} {r : Fold}
    (h : Justified u d void ts r) (t : Tok) : Justified u d void (ts ++ [t]) r := by
  unfold Justified at *
  split at h
  · obtain ⟨pre, a, mid, b, post, h1, h2⟩ := h
    exact ⟨pre, a, mid, b, post ++ [t], by rw [h1]; simp, h2⟩
  · obtain ⟨pre, a, mid, b, post, h1, h2⟩ := h
    exact ⟨pre, a, mid, b, post ++ [t], by rw [h1]; simp, h2⟩
  · obtain ⟨a, h1, h2⟩ := h
    exact ⟨a, List.mem_append_left _ h1, h2⟩

theorem FoldEntry.snoc {u : Uni} {d : TextDoc} {ts : List Tok} {e : Nat × Str}
    (h : FoldEntry u d ts e) (t : Tok) : FoldEntry u d (ts ++ [t]) e := by
  obtain ⟨pre, a, mid, h1, h2⟩ := h
  exact ⟨pre, a, mid ++ [t], by rw [h1]; simp, h2⟩

theorem line_le {d : TextDoc} (hd : Lawful d) (o : Nat) :
    (d.posAt o).line ≤ (d.posAt d.text.length).line := by
  by_cases h : o ≤ d.text.length
  · rcases hd.mono _ _ h with h | ⟨h, _⟩ <;> omega
  · rw [hd.clamp o (by omega)]; exact Nat.le_refl _

theorem lastName_tag {src : Str} {ts : List Tok} {t : Tok} (h : t.type = .StartTag ∨ t.type = .EndTag) :
    lastName src (ts ++ [t]) = some (text src t) := by
  unfold lastName
  rw [List.filter_append, List.filter_cons_of_pos (by simpa using h)]
  simp

theorem lastName_other {src : Str} {ts : List Tok} {t : Tok} (h1 : t.type ≠ .StartTag)
    (h2 : t.type ≠ .EndTag) : lastName src (ts ++ [t]) = lastName src ts := by
  unfold lastName
  rw [List.filter_append, List.filter_cons_of_neg (by simp [h1, h2])]
  simp

/-- Passing over a token that changes neither the stack nor the ranges. -/
theorem FoldInv.skip {u : Uni} {d : TextDoc} {void : List Str} {ts : List Tok} {f : FoldState}
    (h : FoldInv u d void ts f) {t : Tok} {stack : List (Nat × Str)} (hs : ∀ e ∈ stack, e ∈ f.stack)
    (h1 : t.type ≠ .StartTag) (h2 : t.type ≠ .EndTag) (h3 : t.type ≠ .Comment) :
    FoldInv u d void (ts ++ [t]) { f with stack } where
  stack e he := (h.stack e (hs e he)).snoc t
  last := by rw [lastName_other h1 h2]; exact h.last
  ranges r hr := ⟨Justified.snoc (h.ranges r hr).1 t, (h.ranges r hr).2⟩
  comments a ha hc := by
    rcases List.mem_append.1 ha with ha | ha
    · exact h.comments a ha hc
    · rw [List.mem_singleton] at ha; subst ha; exact absurd hc h3

theorem foldClose_inv {u : Uni} {d : TextDoc} {void : List Str} {ts : List Tok} {f : FoldState} {t : Tok}
    (hd : Lawful d) (h : FoldInv u d void ts f)
    (ht : t.type = .StartTagClose ∨ t.type = .EndTagClose ∨ t.type = .StartTagSelfClose)
    (hn : ∀ e ∈ f.stack, e.2 = [] → lastName d.text ts ≠ some []) :
    FoldInv u d void (ts ++ [t]) (foldClose d void f t) := by
  have h1 : t.type ≠ .StartTag := by rcases ht with h | h | h <;> rw [h] <;> decide
  have h2 : t.type ≠ .EndTag := by rcases ht with h | h | h <;> rw [h] <;> decide
  have h3 : t.type ≠ .Comment := by rcases ht with h | h | h <;> rw [h] <;> decide
  have same := h.skip (stack := f.stack) (fun e he => he) h1 h2 h3
  unfold foldClose
  split
  · rename_i hcond
    split
    · exact same
    · rename_i startLine stack hp
      obtain ⟨name, hname, hmem, hsub⟩ := popTo_some hp
      simp only [beq_iff_eq] at hname
      have hskip := h.skip (stack := stack) hsub h1 h2 h3
      simp only
      split
      · rename_i hl
        refine ⟨hskip.stack, hskip.last, ?_, ?_⟩
        · intro r hr
          rcases List.mem_append.1 hr with hr | hr
          · exact hskip.ranges r hr
          · rw [List.mem_singleton] at hr
            subst hr
            have hle := line_le hd t.stop
            refine ⟨?_, by show startLine < (d.posAt t.stop).line - 1; omega,
              by show (d.posAt t.stop).line - 1 ≤ _; omega⟩
            obtain ⟨pre, a, mid, hts, ha1, ha2⟩ := h.stack _ hmem
            rcases ha2 with ⟨_, ha2, ha3⟩ | ⟨hemp, _⟩
            · refine ⟨pre, a, mid, t, [], by rw [hts]; simp, ha2, ?_, ?_, ha1,
                by show (d.posAt t.stop).line - 1 + 1 = _; omega⟩
              · rw [ha3]
                rcases ht with ht | ht | ht
                · right; right
                  refine ⟨ht, ?_⟩
                  rcases hcond with hcond | hcond
                  · exact absurd ht hcond
                  · rw [← hname] at hcond
                    simpa using hcond
                · exact .inl ht
                · exact .inr (.inl ht)
              · rw [← hts, ← h.last, ← hname, ha3]
            · exfalso
              have : name = [] := hemp
              rw [this] at hname
              exact hn _ hmem hemp (by rw [← h.last, ← hname])
        · intro a ha hc hr1 hr2 hl2
          exact List.mem_append_left _ (hskip.comments a ha hc hr1 hr2 hl2)
      · exact hskip
  · exact same

theorem foldComment_inv {u : Uni} {d : TextDoc} {void : List Str} {ts : List Tok} {f : FoldState} {t : Tok}
    (hd : Lawful d) (h : FoldInv u d void ts f) (ht : t.type = .Comment) :
    FoldInv u d void (ts ++ [t]) (foldComment u d f t (text d.text t)) := by
  have h1 : t.type ≠ .StartTag := by rw [ht]; decide
  have h2 : t.type ≠ .EndTag := by rw [ht]; decide
  have hlast : f.lastTag = lastName d.text (ts ++ [t]) := by rw [lastName_other h1 h2]; exact h.last
  have hold : ∀ r ∈ f.ranges, Justified u d void (ts ++ [t]) r ∧ r.startLine < r.endLine ∧
      r.endLine ≤ (d.posAt d.text.length).line :=
    fun r hr => ⟨Justified.snoc (h.ranges r hr).1 t, (h.ranges r hr).2⟩
  unfold foldComment
  simp only
  split
  · rename_i hreg
    refine ⟨?_, hlast, hold, ?_⟩
    · intro e he
      rcases List.mem_cons.1 he with rfl | he
      · exact ⟨ts, t, [], rfl, rfl, .inr ⟨rfl, ht, isRegionStart_spec hreg⟩⟩
      · exact (h.stack e he).snoc t
    · intro a ha hc hr1 hr2 hl
      rcases List.mem_append.1 ha with ha | ha
      · exact h.comments a ha hc hr1 hr2 hl
      · rw [List.mem_singleton] at ha; subst ha; rw [hreg] at hr1; cases hr1
  · rename_i hreg
    split
    · rename_i hend
      have hcom : ∀ a ∈ ts ++ [t], a.type = .Comment → isRegionStart u (text d.text a) = false →
          ¬ RegionEnd u (text d.text a) → (d.posAt a.offset).line < (d.posAt (a.stop + 3)).line →
          ⟨(d.posAt a.offset).line, (d.posAt (a.stop + 3)).line, some .comment⟩ ∈ f.ranges := by
        intro a ha hc hr1 hr2 hl
        rcases List.mem_append.1 ha with ha | ha
        · exact h.comments a ha hc hr1 hr2 hl
        · rw [List.mem_singleton] at ha; subst ha; exact absurd (isRegionEnd_iff.1 hend) hr2
      split
      · exact ⟨fun e he => (h.stack e he).snoc t, hlast, hold, hcom⟩
      · rename_i line stack hp
        obtain ⟨name, hname, hmem, hsub⟩ := popTo_some hp
        have hst : ∀ e ∈ stack, FoldEntry u d (ts ++ [t]) e := fun e he => (h.stack e (hsub e he)).snoc t
        split
        · rename_i hl
          refine ⟨hst, hlast, ?_, fun a ha hc hr1 hr2 hl2 => List.mem_append_left _ (hcom a ha hc hr1 hr2 hl2)⟩
          intro r hr
          rcases List.mem_append.1 hr with hr | hr
          · exact hold r hr
          · rw [List.mem_singleton] at hr
            subst hr
            refine ⟨?_, hl.1, line_le hd _⟩
            obtain ⟨pre, a, mid, hts, ha1, ha2⟩ := h.stack _ hmem
            have hemp : name = [] := by simpa using hname
            rcases ha2 with ⟨hne, _⟩ | ⟨_, ha2, ha3⟩
            · exact absurd hemp hne
            · exact ⟨pre, a, mid, t, [], by rw [hts]; simp, ha2, ht, ha3, isRegionEnd_iff.1 hend, ha1, rfl⟩
        · exact ⟨hst, hlast, hold, hcom⟩
    · rename_i hend
      have hne : ¬ RegionEnd u (text d.text t) := fun hr => hend (isRegionEnd_iff.2 hr)
      have hst : ∀ e ∈ f.stack, FoldEntry u d (ts ++ [t]) e := fun e he => (h.stack e he).snoc t
      split
      · rename_i hl
        refine ⟨hst, hlast, ?_, ?_⟩
        · intro r hr
          rcases List.mem_append.1 hr with hr | hr
          · exact hold r hr
          · rw [List.mem_singleton] at hr
            subst hr
            exact ⟨⟨t, by simp, ht, hne, rfl, rfl⟩, hl, line_le hd _⟩
        · intro a ha hc hr1 hr2 hl2
          rcases List.mem_append.1 ha with ha | ha
          · exact List.mem_append_left _ (h.comments a ha hc hr1 hr2 hl2)
          · rw [List.mem_singleton] at ha; subst ha; simp
      · rename_i hl
        refine ⟨hst, hlast, hold, ?_⟩
        intro a ha hc hr1 hr2 hl2
        rcases List.mem_append.1 ha with ha | ha
        · exact h.comments a ha hc hr1 hr2 hl2
        · rw [List.mem_singleton] at ha; subst ha; exact absurd hl2 hl

theorem lastName_ne {src : Str} {ts : List Tok}
    (h : ∀ t ∈ ts, t.type = .StartTag ∨ t.type = .EndTag → text src t ≠ []) : lastName src ts ≠ some [] := by
  unfold lastName
  intro h1
  obtain ⟨t, ht, h2⟩ := Option.map_eq_some_iff.1 h1
  have := List.mem_of_getLast? ht
  rw [List.mem_filter] at this
  exact h t this.1 (by simpa using this.2) h2

theorem foldStep_inv {u : Uni} {d : TextDoc} {void : List Str} {ts : List Tok} {f f' : FoldState} {t : Tok}
    (hd : Lawful d) (h : FoldInv u d void ts f)
    (hn : ∀ a ∈ ts ++ [t], a.type = .StartTag ∨ a.type = .EndTag → text d.text a ≠ [])
    (hs : foldStep u d void f t = .ok f') : FoldInv u d void (ts ++ [t]) f' := by
  have hname : lastName d.text ts ≠ some [] :=
    lastName_ne (fun a ha => hn a (List.mem_append_left _ ha))
  unfold foldStep at hs
  split at hs
  · rename_i ht
    obtain ⟨name, h1, hs⟩ := bind_ok hs
    cases hs
    obtain ⟨_, _, _, _, rfl⟩ := sliceStr_ok h1
    refine ⟨?_, ?_, fun r hr => ⟨Justified.snoc (h.ranges r hr).1 t, (h.ranges r hr).2⟩, ?_⟩
    · intro e he
      rcases List.mem_cons.1 he with rfl | he
      · exact ⟨ts, t, [], rfl, rfl, .inl ⟨hn t (by simp) (.inl ht), ht, rfl⟩⟩
      · exact (h.stack e he).snoc t
    · rw [lastName_tag (.inl ht)]; rfl
    · intro a ha hc
      rcases List.mem_append.1 ha with ha | ha
      · exact h.comments a ha hc
      · rw [List.mem_singleton] at ha; subst ha; rw [ht] at hc; cases hc
  · rename_i ht
    obtain ⟨name, h1, hs⟩ := bind_ok hs
    cases hs
    obtain ⟨_, _, _, _, rfl⟩ := sliceStr_ok h1
    refine ⟨fun e he => (h.stack e he).snoc t, ?_, fun r hr => ⟨Justified.snoc (h.ranges r hr).1 t, (h.ranges r hr).2⟩, ?_⟩
    · rw [lastName_tag (.inr ht)]; rfl
    · intro a ha hc
      rcases List.mem_append.1 ha with ha | ha
      · exact h.comments a ha hc
      · rw [List.mem_singleton] at ha; subst ha; rw [ht] at hc; cases hc
  · cases hs; exact foldClose_inv hd h (.inl (by assumption)) (fun _ _ _ => hname)
  · cases hs; exact foldClose_inv hd h (.inr (.inl (by assumption))) (fun _ _ _ => hname)
  · cases hs; exact foldClose_inv hd h (.inr (.inr (by assumption))) (fun _ _ _ => hname)
  · obtain ⟨x, h1, hs⟩ := bind_ok hs
    cases hs
    obtain ⟨_, _, _, _, rfl⟩ := sliceStr_ok h1
    exact foldComment_inv hd h (by assumption)
  · cases hs
    exact h.skip (fun e he => he) (by assumption) (by assumption) (by assumption)

theorem foldlM_inv {u : Uni} {d : TextDoc} {void : List Str} {ts done : List Tok} {f f' : FoldState}
    (hd : Lawful d) (h : FoldInv u d void done f)
    (hn : ∀ a ∈ done ++ ts, a.type = .StartTag ∨ a.type = .EndTag → text d.text a ≠ [])
    (hs : ts.foldlM (foldStep u d void) f = .ok f') : FoldInv u d void (done ++ ts) f' := by
  induction ts generalizing done f with
  | nil => cases hs; simpa using h
  | cons t ts ih =>
    rw [List.foldlM_cons] at hs
    obtain ⟨f1, h1, h2⟩ := bind_ok hs
    have := ih (done := done ++ [t])
      (foldStep_inv hd h (fun a ha => hn a (by simp at ha ⊢; rcases ha with h | h <;> simp [h])) h1)
      (fun a ha => hn a (by simpa using ha)) h2
    simpa using this

/-- The state at the end of the loop. -/
theorem folding_inv {u : Uni} {cs : Bool} {d : TextDoc} {void : List Str} {f : FoldState} {fuel : Nat}
    (hd : Lawful d)
    (h : foldLoop ⟨u, d.text, false, cs⟩ d void fuel ⟨[], [], none, none⟩ (.new 0 .WithinContent) = .ok f) :
    ∃ ts, tokensF ⟨u, d.text, false, cs⟩ fuel (.new 0 .WithinContent) = .ok ts ∧
      FoldInv u d void ts f := by
  obtain ⟨ts, h1, h2⟩ := foldLoop_ok.1 h
  refine ⟨ts, h1, ?_⟩
  have := foldlM_inv (u := u) (void := void) (done := []) hd
    ⟨by simp, rfl, by simp, by simp⟩ (ts := ts) (fun a ha hty => ?_) h2
  · simpa using this
  · obtain ⟨s2, _, hr, _⟩ := tokensF_run h1
    obtain ⟨s0, s1, hst, hne, rfl⟩ := hr.mem (by simpa using ha)
    have := hst.textOK hne
    unfold TextOK at this
    simp only at this
    rcases hty with hty | hty <;> rw [hty] at this <;> exact this.1

end Html

namespace Html
open Spec

/-- Only the lines of positions matter. -/
theorem foldStep_lines {u : Uni} {d d' : TextDoc} {void : List Str} {f : FoldState} {t : Tok}
    (ht : d.text = d'.text) (hl : ∀ o, (d.posAt o).line = (d'.posAt o).line) :
    foldStep u d void f t = foldStep u d' void f t := by
  unfold foldStep foldClose foldComment
  simp only [hl, ht]

theorem foldLoop_lines {c : Cfg} {d d' : TextDoc} {void : List Str} {fuel : Nat} {f : FoldState} {s : Sc}
    (ht : d.text = d'.text) (hl : ∀ o, (d.posAt o).line = (d'.posAt o).line) :
    foldLoop c d void fuel f s = foldLoop c d' void fuel f s := by
  induction fuel generalizing f s with
  | zero => rfl
  | succ n ih =>
    unfold foldLoop
    simp only [ih, foldStep_lines ht hl]

theorem folding_lines {u : Uni} {cs : Bool} {void : List Str} {d d' : TextDoc} {limit : Option Nat}
    (ht : d.text = d'.text) (hl : ∀ o, (d.posAt o).line = (d'.posAt o).line) :
    getFoldingRanges u cs void d limit = getFoldingRanges u cs void d' limit := by
  unfold getFoldingRanges
  simp only [foldLoop_lines ht hl, ht]

/-- A document that knows lines only, for computations. -/
def lineDoc (src : Str) : TextDoc where
  text := src
  posAt o := ⟨breaksBefore src (min o src.length), 0⟩
  offsetAt _ := 0

theorem folding_ref {u : Uni} {cs : Bool} {void : List Str} {src : Str} {limit : Option Nat} :
    getFoldingRanges u cs void (.ref src) limit = getFoldingRanges u cs void (lineDoc src) limit := by
  refine folding_lines rfl (fun o => ?_)
  show (refPosAt src o).line = breaksBefore src (min o src.length)
  by_cases h : o ≤ src.length
  · rw [ref_line h, Nat.min_eq_left h]
  · rw [ref_clamp (by omega), ref_line (Nat.le_refl _), Nat.min_eq_right (by omega)]

theorem foldStep_noerr {u : Uni} {d : TextDoc} {void : List Str} {f : FoldState} {t : Tok} {x : Str}
    (h : sliceStr d.text t.offset t.stop = .ok x) : ∃ f', foldStep u d void f t = .ok f' := by
  unfold foldStep
  rw [h]
  split <;> exact ⟨_, rfl⟩

theorem foldlM_noerr {u : Uni} {d : TextDoc} {void : List Str} {f : FoldState} {ts : List Tok}
    (h : ∀ t ∈ ts, ∃ x, sliceStr d.text t.offset t.stop = .ok x) :
    ∃ f', ts.foldlM (foldStep u d void) f = .ok f' := by
  induction ts generalizing f with
  | nil => exact ⟨f, rfl⟩
  | cons t ts ih =>
    obtain ⟨x, hx⟩ := h t (by simp)
    obtain ⟨f1, h1⟩ := foldStep_noerr (u := u) (void := void) (f := f) hx
    rw [List.foldlM_cons, h1]
    exact ih (fun t ht => h t (List.mem_cons_of_mem _ ht))

theorem Spec.Contiguous.mem {ts : List Tok} {a b : Nat} (h : Contiguous a ts b) {t : Tok} (ht : t ∈ ts) :
    t.offset ≤ t.stop ∧ t.stop ≤ b := by
  induction ts generalizing a with
  | nil => cases ht
  | cons x ts ih =>
    obtain ⟨h1, h2, h3⟩ := h
    have hle : ∀ (ts : List Tok) (a : Nat), Contiguous a ts b → a ≤ b := by
      intro ts
      induction ts with
      | nil => intro a h; exact Nat.le_of_eq h
      | cons y ts ih => intro a h; obtain ⟨h1, h2, h3⟩ := h; have := ih _ h3; omega
    rcases List.mem_cons.1 ht with rfl | ht
    · exact ⟨h2, hle _ _ h3⟩
    · exact ih h3 ht

end Html
