import Verif.Spec.Retag
import Verif.Proof.Insert

/-! # The nodes of a text in which a start tag gets other attributes -/

namespace Html
open Spec

variable {P l m : Nat} {A : List (Str × Attr)}

/-- The attributes of an element that is not the changed one. -/
def moveAttrs (P l m : Nat) (x : List (Str × Attr)) : List (Str × Attr) :=
  x.map fun a => (a.1, ⟨a.2.value, moved P l m a.2.offset⟩)

theorem retagAll_map (x : List Node) : retagAll P l m A x = x.map (retag P l m A) := by
  induction x with
  | nil => rfl
  | cons n x ih => rw [retagAll, ih]; rfl

theorem retag_eq (n : Node) : retag P l m A n =
    ⟨n.tag, moved P l m n.start, moved P l m n.stop, n.children.map (retag P l m A), n.closed,
      n.startTagEnd.map (moved P l m), n.endTagStart.map (moved P l m),
      if n.start = P then A else moveAttrs P l m n.attributes⟩ := by
  cases n
  rw [retag, retagAll_map]
  rfl

theorem moveAttrs_insert (x : List (Str × Attr)) (a : Str) (v : Attr) :
    moveAttrs P l m (attrInsert x a v) = attrInsert (moveAttrs P l m x) a ⟨v.value, moved P l m v.offset⟩ := by
  induction x with
  | nil => rfl
  | cons b x ih =>
    obtain ⟨b1, b2⟩ := b
    simp only [attrInsert, moveAttrs, List.map_cons] at ih ⊢
    split
    · simp
    · simp [ih]

theorem moveAttrs_set (x : List (Str × Attr)) (a v : Str) :
    attrSetValue (moveAttrs P l m x) a v = (attrSetValue x a v).map (moveAttrs P l m) := by
  induction x with
  | nil => rfl
  | cons b x ih =>
    obtain ⟨b1, b2⟩ := b
    simp only [attrSetValue, moveAttrs, List.map_cons] at ih ⊢
    split
    · rfl
    · rw [ih]
      cases attrSetValue x a v <;> rfl

mutual
theorem retag_congr {l' m' : Nat} (h : ∀ o, moved P l m o = moved P l' m' o) : ∀ n : Node, retag P l m A n = retag P l' m' A n
  | ⟨tag, start, stop, children, closed, ste, ets, attrs⟩ => by
    have e : moved P l m = moved P l' m' := funext h
    rw [retag, retag, retagAll_congr h children, e]
theorem retagAll_congr {l' m' : Nat} (h : ∀ o, moved P l m o = moved P l' m' o) : ∀ x : List Node,
    retagAll P l m A x = retagAll P l' m' A x
  | [] => rfl
  | n :: x => by rw [retagAll, retagAll, retag_congr h n, retagAll_congr h x]
end

/-! ### Related stacks -/

/-- The stacks behind the tag; the ends of open elements do not matter. -/
def RRel (P l m : Nat) (A : List (Str × Attr)) : List Node → List Node → Prop
  | [], _ => False
  | [r], l' => ∃ r', l' = [r'] ∧ r'.children = r.children.map (retag P l m A)
  | q :: q2 :: qs, l' => ∃ e' qs', l' = { retag P l m A q with stop := e' } :: qs' ∧ RRel P l m A (q2 :: qs) qs'

theorem RRel.length {x x' : List Node} (h : RRel P l m A x x') : x'.length = x.length := by
  induction x generalizing x' with
  | nil => exact h.elim
  | cons q qs ih =>
    cases qs with
    | nil => obtain ⟨r', e, _⟩ := h; rw [e]; rfl
    | cons q2 qs => obtain ⟨_, qs', e, h⟩ := h; rw [e, List.length_cons, ih h]; rfl

theorem RRel.ne {x x' : List Node} (h : RRel P l m A x x') : x ≠ [] ∧ x' ≠ [] := by
  cases x with
  | nil => exact h.elim
  | cons q qs =>
    refine ⟨by simp, fun e => ?_⟩
    have := h.length
    rw [e] at this
    simp at this

theorem RRel.cons {q : Node} {x x' : List Node} (h : RRel P l m A x x') (e : Nat) :
    RRel P l m A (q :: x) ({ retag P l m A q with stop := e } :: x') := by
  cases x with
  | nil => exact h.elim
  | cons q2 qs => exact ⟨e, x', rfl, h⟩

theorem RRel.uncons {q q' : Node} {x x' : List Node} (h : RRel P l m A (q :: x) (q' :: x')) (hl : x ≠ []) :
    (∃ e', q' = { retag P l m A q with stop := e' }) ∧ RRel P l m A x x' := by
  cases x with
  | nil => exact absurd rfl hl
  | cons q2 qs =>
    obtain ⟨e', _, e, h⟩ := h
    cases e
    exact ⟨⟨e', rfl⟩, h⟩

theorem RRel.add {q q' n : Node} {x x' : List Node} (h : RRel P l m A (q :: x) (q' :: x')) :
    RRel P l m A (q.addChild n :: x) (q'.addChild (retag P l m A n) :: x') := by
  cases x with
  | nil =>
    obtain ⟨r', e, h⟩ := h
    cases e
    refine ⟨_, rfl, ?_⟩
    simp only [Node.addChild, h, List.map_append, List.map_cons, List.map_nil]
  | cons q2 qs =>
    obtain ⟨⟨e', h2⟩, h3⟩ := h.uncons (by simp)
    refine ⟨e', _, ?_, h3⟩
    rw [h2]
    simp only [Node.addChild, retag_eq, List.map_append, List.map_cons, List.map_nil]

/-- The innermost element ends. -/
theorem RRel.close {q q' q2 q2' : Node} {x x' : List Node} (h : RRel P l m A (q :: q2 :: x) (q' :: q2' :: x'))
    {e : Nat} {b : Bool} {o : Option Nat} :
    RRel P l m A (q2.addChild { q with stop := e, closed := b, endTagStart := o } :: x)
      (q2'.addChild { q' with stop := moved P l m e, closed := b, endTagStart := o.map (moved P l m) } :: x') := by
  obtain ⟨⟨e', h2⟩, h3⟩ := h.uncons (by simp)
  have := h3.add (n := { q with stop := e, closed := b, endTagStart := o })
  rw [retag_eq] at this
  rw [h2, retag_eq]
  exact this

/-- The innermost element is left open. -/
theorem RRel.leave {q q' q2 q2' : Node} {x x' : List Node} (h : RRel P l m A (q :: q2 :: x) (q' :: q2' :: x'))
    {e : Nat} :
    RRel P l m A (q2.addChild { q with stop := e, closed := false } :: x)
      (q2'.addChild { q' with stop := moved P l m e, closed := false } :: x') := by
  have h0 := h.close (e := e) (o := q.endTagStart) (b := false)
  obtain ⟨⟨e', h2⟩, h3⟩ := h.uncons (by simp)
  have : q'.endTagStart = q.endTagStart.map (moved P l m) := by rw [h2, retag_eq]
  rw [← this] at h0
  exact h0

/-- States of the two parsers, outside start tags, in an end tag that starts at `e`. -/
structure ERt (P l m : Nat) (A : List (Str × Attr)) (e : Nat) (p p' : PState) : Prop where
  stack : RRel P l m A (p.cur :: p.parents) (p'.cur :: p'.parents)
  start : p.endTagStart = some e
  start' : p'.endTagStart = some (moved P l m e)
  name : p'.endTagName = p.endTagName

/-- States of the two parsers when the scanner is in state `st`. -/
structure PRt (P l m : Nat) (A : List (Str × Attr)) (st : SS) (p p' : PState) : Prop where
  inn : st.inStart = true → RRel P l m A p.parents p'.parents ∧ P < p.cur.start ∧
    ∃ e', p'.cur = { retag P l m A p.cur with stop := e' }
  out : st.inStart = false → RRel P l m A (p.cur :: p.parents) (p'.cur :: p'.parents)
  pend : st = .AfterAttributeName ∨ st = .BeforeAttributeValue → p'.pending = p.pending
  ends : st.inEnd = true → ∃ e, ERt P l m A e p p'

theorem ERt.pop {e x : Nat} {p p' : PState} (h : ERt P l m A e p p') :
    PRes (fun q q' => ERt P l m A e q q')
      ({ p with cur := { p.cur with closed := true, endTagStart := p.endTagStart, stop := x } } : PState).pop
      ({ p' with cur := { p'.cur with closed := true, endTagStart := p'.endTagStart, stop := moved P l m x } } : PState).pop := by
  obtain ⟨cur, ps, es, en, pe⟩ := p
  obtain ⟨cur', ps', es', en', pe'⟩ := p'
  obtain ⟨h1, h2, h3, h4⟩ := h
  simp only at h1 h2 h3 h4
  subst h2 h3
  have hl := h1.length
  cases ps with
  | nil =>
    cases ps' with
    | nil => rfl
    | cons => simp at hl
  | cons q qs =>
    cases ps' with
    | nil => simp at hl
    | cons q' qs' =>
      exact ⟨_, rfl, h1.close (o := some e) (b := true), rfl, rfl, h4⟩

theorem popUnclosed_retag {n e : Nat} {p p' : PState} (h : ERt P l m A e p p') (hn : n ≤ p.parents.length) :
    PRes (fun q q' => ERt P l m A e q q') (popUnclosed n p) (popUnclosed n p') := by
  induction n generalizing p p' with
  | zero => exact ⟨p', rfl, h⟩
  | succ n ih =>
    obtain ⟨cur, ps, es, en, pe⟩ := p
    obtain ⟨cur', ps', es', en', pe'⟩ := p'
    obtain ⟨h1, h2, h3, h4⟩ := h
    simp only at h1 h2 h3 h4 hn
    subst h2 h3
    have hl := h1.length
    cases ps with
    | nil => simp at hn
    | cons q qs =>
      cases ps' with
      | nil => simp at hl
      | cons q' qs' =>
        have h0 : ERt P l m A e ⟨q.addChild { cur with stop := e, closed := false }, qs, some e, en, pe⟩
            ⟨q'.addChild { cur' with stop := moved P l m e, closed := false }, qs', some (moved P l m e), en', pe'⟩ :=
          ⟨h1.leave, rfl, rfl, h4⟩
        simp only [List.length_cons] at hn
        exact ih h0 (by simp only; omega)

theorem matchDepth_retag {u : Uni} {cs : Bool} {nm : Option Str} {q q' : Node} {x x' : List Node}
    (h : RRel P l m A (q :: x) (q' :: x')) : matchDepth u cs nm q' x' = matchDepth u cs nm q x := by
  induction x generalizing q q' x' with
  | nil =>
    obtain ⟨r', e, _⟩ := h
    cases e
    rfl
  | cons q2 qs ih =>
    have hl := h.length
    cases x' with
    | nil => simp at hl
    | cons q2' qs' =>
      have hl' : (q2' :: qs').length = (q2 :: qs).length := by simpa using hl
      unfold matchDepth
      obtain ⟨⟨e', e⟩, h⟩ := h.uncons (by simp)
      have : q'.isSameTag u nm cs = q.isSameTag u nm cs := by rw [e, retag_eq]; rfl
      rw [this, ih h, hl']

/-! ### One step -/

theorem PRt.idle {s s1 : Sc} {p p' : PState} (h : PRt P l m A s.state p p') (hf : LocFacts s s1) (hi : InfoFacts s s1)
    (h1 : s1.tokenType ≠ .StartTagOpen) (h2 : s1.tokenType ≠ .StartTagClose) (h3 : s1.tokenType ≠ .StartTagSelfClose)
    (h4 : s1.tokenType ≠ .EndTagOpen) (h5 : s1.tokenType ≠ .AttributeName) : PRt P l m A s1.state p p' where
  inn hs := h.inn ((hf.g1 hs).resolve_right h1)
  out hs := by
    refine h.out ?_
    cases h0 : s.state.inStart with
    | false => rfl
    | true =>
      rcases hf.g2 h0 with h6 | h6 | h6
      · rw [hs] at h6; cases h6
      · exact absurd h6 h2
      · exact absurd h6 h3
  pend hs := by
    rcases hi.f4 hs with h6 | ⟨_, h6⟩
    · exact absurd h6 h5
    · exact h.pend (.inl h6)
  ends hs := h.ends ((hf.g5 hs).resolve_right h4)

/-- Inside a start tag only the innermost node changes. -/
theorem PRt.inner {st : SS} {q q' : PState} (h : st.inStart = true) (h1 : RRel P l m A q.parents q'.parents)
    (h0 : P < q.cur.start) (h2 : ∃ e', q'.cur = { retag P l m A q.cur with stop := e' })
    (h3 : st = .AfterAttributeName ∨ st = .BeforeAttributeValue → q'.pending = q.pending) : PRt P l m A st q q' :=
  ⟨fun _ => ⟨h1, h0, h2⟩, fun h0 => (by rw [h] at h0; cases h0), h3, fun h0 => (by rw [inStart_inEnd h] at h0; cases h0)⟩

/-- Outside tags. -/
theorem PRt.outer {st : SS} {q q' : PState} (h : st.inStart = false) (h0 : st.inEnd = false)
    (h1 : RRel P l m A (q.cur :: q.parents) (q'.cur :: q'.parents)) : PRt P l m A st q q' :=
  ⟨fun h2 => (by rw [h] at h2; cases h2), fun _ => h1, fun h2 => (by rcases h2 with rfl | rfl <;> cases h),
    fun h2 => (by rw [h0] at h2; cases h2)⟩

/-- The end of a start tag that also ends the element. -/
theorem pop_retag {p p' : PState} {n : Node} (h : RRel P l m A p.parents p'.parents) (hp : p.cur = n)
    (hp' : p'.cur = retag P l m A n) :
    PRes (fun q q' => RRel P l m A (q.cur :: q.parents) (q'.cur :: q'.parents)) p.pop p'.pop := by
  obtain ⟨cur, ps, es, en, pe⟩ := p
  obtain ⟨cur', ps', es', en', pe'⟩ := p'
  simp only at h hp hp'
  subst hp hp'
  have hl := h.length
  cases ps with
  | nil => exact h.elim
  | cons q qs =>
    cases ps' with
    | nil => simp at hl
    | cons q' qs' => exact ⟨_, rfl, h.add⟩

theorem retag_behind {n : Node} (h : P < n.start) : (if n.start = P then A else moveAttrs P l m n.attributes) =
    moveAttrs P l m n.attributes := if_neg (by omega)

variable {c : Cfg}

theorem parseStep_retag {c' : Cfg} {void : List Str} {s s1 s1' : Sc} {p p' : PState} (h : PRt P l m A s.state p p')
    (hf : LocFacts s s1) (hi : InfoFacts s s1) (t1 : s1'.tokenType = s1.tokenType)
    (t2 : s1'.tokenOffset = moved P l m s1.tokenOffset) (t3 : s1'.tokenEnd = moved P l m s1.tokenEnd)
    (t4 : s1'.tokenLength = s1.tokenLength) (hu : c'.uni = c.uni)
    (hc : c'.caseSensitive = c.caseSensitive) (hx : tokenText c' s1' = tokenText c s1)
    (hP : P < s1.tokenOffset) :
    PRes (PRt P l m A s1.state) (parseStep c void p s1) (parseStep c' void p' s1') := by
  have idle := fun h1 h2 h3 h4 h5 => h.idle hf hi h1 h2 h3 h4 h5
  unfold parseStep
  rw [t1]
  cases htt : s1.tokenType
  case StartTagOpen =>
    obtain ⟨g1, g2, g3, g4⟩ := hf.g4 htt
    refine ⟨_, rfl, .inner g2 (h.out g1) ?_ ⟨c'.src.length, ?_⟩ (fun h => by rcases h with h | h <;> contradiction)⟩
    · exact hP
    · simp only [Node.new, retag_eq, t2]
      rw [if_neg (by omega)]
      rfl
  case StartTag =>
    have g1 := hi.f1 (.inl htt)
    have g2 : s1.state.inStart = true := by rcases hf.g2 g1 with h | h | h <;> first | exact h | (rw [htt] at h; cases h)
    refine PRes.bindEq hx fun t _ => ⟨_, rfl, ?_⟩
    obtain ⟨g3, g5, e', g4⟩ := h.inn g1
    refine .inner g2 g3 g5 ⟨e', ?_⟩ (fun h0 => ?_)
    · simp only [g4, retag_eq]
    · rcases hi.f4 h0 with h | ⟨h | h, _⟩ <;> (rw [htt] at h; cases h)
  case AttributeName =>
    have g1 := hi.f1 (.inr htt)
    have g2 : s1.state.inStart = true := by rcases hf.g2 g1 with h | h | h <;> first | exact h | (rw [htt] at h; cases h)
    refine PRes.bindEq hx fun t _ => ⟨_, rfl, ?_⟩
    obtain ⟨g3, g5, e', g4⟩ := h.inn g1
    refine .inner g2 g3 g5 ⟨e', ?_⟩ (fun h0 => rfl)
    simp only [g4, retag_eq, t2]
    rw [if_neg (by omega), if_neg (by omega), moveAttrs_insert]
  case DelimiterAssign =>
    have g0 := hi.f2 htt
    have g1 : s.state.inStart = true := by rw [g0]; rfl
    have g2 : s1.state.inStart = true := by rcases hf.g2 g1 with h | h | h <;> first | exact h | (rw [htt] at h; cases h)
    have g5 := h.pend (.inl g0)
    obtain ⟨g3, g6, e', g4⟩ := h.inn g1
    simp only [g5]
    cases hp : p.pending with
    | none =>
      exact ⟨_, rfl, .inner g2 g3 g6 ⟨e', g4⟩ (fun _ => g5)⟩
    | some a =>
      have e1 : attrSetValue p'.cur.attributes a [] = (attrSetValue p.cur.attributes a []).map (moveAttrs P l m) := by
        rw [g4, retag_eq, retag_behind g6]; exact moveAttrs_set ..
      simp only [e1]
      cases attrSetValue p.cur.attributes a [] with
      | error e => rfl
      | ok m =>
        refine ⟨_, rfl, .inner g2 g3 g6 ⟨e', ?_⟩ (fun _ => ?_)⟩
        · simp only [g4, retag_eq]
          rw [if_neg (by omega)]
        · rfl
  case AttributeValue =>
    obtain ⟨g0, g2⟩ := hi.f3 htt
    have g1 : s.state.inStart = true := by rw [g0]; rfl
    have g2 : s1.state.inStart = true := by rw [g2]; rfl
    have g5 := h.pend (.inr g0)
    obtain ⟨g3, g7, e', g4⟩ := h.inn g1
    have g6 : ¬ (s1.state = .AfterAttributeName ∨ s1.state = .BeforeAttributeValue) := by
      intro h0
      rcases hi.f4 h0 with h | ⟨h | h, _⟩ <;> (rw [htt] at h; cases h)
    refine PRes.bindEq hx fun t _ => ?_
    simp only [g5]
    cases hp : p.pending with
    | none =>
      exact ⟨_, rfl, .inner g2 g3 g7 ⟨e', g4⟩ (fun _ => g5)⟩
    | some a =>
      have e1 : attrSetValue p'.cur.attributes a t = (attrSetValue p.cur.attributes a t).map (moveAttrs P l m) := by
        rw [g4, retag_eq, retag_behind g7]; exact moveAttrs_set ..
      simp only [e1]
      cases attrSetValue p.cur.attributes a t with
      | error e => rfl
      | ok m =>
        refine ⟨_, rfl, .inner g2 g3 g7 ⟨e', ?_⟩ (fun h0 => absurd h0 g6)⟩
        simp only [g4, retag_eq]
        rw [if_neg (by omega)]
  case StartTagClose =>
    obtain ⟨g1, g2⟩ := hf.g3 (.inl htt)
    have g2' : s1.state.inEnd = false := by
      cases h0 : s1.state.inEnd with
      | false => rfl
      | true =>
        rcases hf.g5 h0 with h | h
        · rw [inEnd_inStart h] at g1; cases g1
        · rw [htt] at h; cases h
    obtain ⟨g3, g5, e', g4⟩ := h.inn g1
    have e1 : p.parents.isEmpty = false := by
      cases hp : p.parents with
      | nil => exact absurd hp g3.ne.1
      | cons => rfl
    have e2 : p'.parents.isEmpty = false := by
      cases hp : p'.parents with
      | nil => exact absurd hp g3.ne.2
      | cons => rfl
    simp only [e1, e2, Bool.false_eq_true, if_false, t4]
    have e3 : p'.cur.tag = p.cur.tag := by rw [g4, retag_eq]
    refine PRes.ite Iff.rfl (fun _ => PRes.ite (by rw [e3]) (fun _ => ?_) (fun _ => ?_)) (fun _ => ?_)
    · refine PRes.mono (pop_retag (n := { p.cur with stop := s1.tokenEnd, startTagEnd := some s1.tokenEnd, closed := true })
        g3 rfl ?_) (fun q q' hq => .outer g2 g2' hq)
      simp only [g4, retag_eq, t3]
      rfl
    · refine ⟨_, rfl, .outer g2 g2' ?_⟩
      have := g3.cons (q := { p.cur with stop := s1.tokenEnd, startTagEnd := some s1.tokenEnd }) s1'.tokenEnd
      rw [retag_eq] at this
      simp only [g4, retag_eq, t3] at this ⊢
      exact this
    · refine PRes.mono (pop_retag (n := { p.cur with stop := s1.tokenEnd }) g3 rfl ?_) (fun q q' hq => .outer g2 g2' hq)
      simp only [g4, retag_eq, t3]
  case StartTagSelfClose =>
    obtain ⟨g1, g2⟩ := hf.g3 (.inr htt)
    have g2' : s1.state.inEnd = false := by
      cases h0 : s1.state.inEnd with
      | false => rfl
      | true =>
        rcases hf.g5 h0 with h | h
        · rw [inEnd_inStart h] at g1; cases g1
        · rw [htt] at h; cases h
    obtain ⟨g3, g5, e', g4⟩ := h.inn g1
    have e1 : p.parents.isEmpty = false := by
      cases hp : p.parents with
      | nil => exact absurd hp g3.ne.1
      | cons => rfl
    have e2 : p'.parents.isEmpty = false := by
      cases hp : p'.parents with
      | nil => exact absurd hp g3.ne.2
      | cons => rfl
    simp only [e1, e2, Bool.false_eq_true, if_false]
    refine PRes.mono (pop_retag (n := { p.cur with stop := s1.tokenEnd, startTagEnd := some s1.tokenEnd, closed := true })
      g3 rfl ?_) (fun q q' hq => .outer g2 g2' hq)
    simp only [g4, retag_eq, t3]
    rfl
  case EndTagOpen =>
    obtain ⟨g1, g2⟩ := hf.g6 htt
    refine ⟨_, rfl, ?_⟩
    refine ⟨fun h0 => (by rw [inEnd_inStart g2] at h0; cases h0), fun _ => h.out g1, fun h0 => ?_,
      fun _ => ⟨s1.tokenOffset, h.out g1, rfl, ?_, rfl⟩⟩
    · rcases h0 with h0 | h0 <;> (rw [h0] at g2; cases g2)
    · simp only [t2]
  case EndTag =>
    have g1 := hf.g7 (.inl htt)
    refine PRes.bindEq hx fun t _ => ⟨_, rfl, ?_⟩
    have hid := idle (by rw [htt]; decide) (by rw [htt]; decide) (by rw [htt]; decide) (by rw [htt]; decide) (by rw [htt]; decide)
    refine ⟨hid.inn, hid.out, hid.pend, fun h0 => ?_⟩
    obtain ⟨e, k3⟩ := hid.ends h0
    refine ⟨e, k3.stack, k3.start, k3.start', ?_⟩
    simp only [hu, hc]
  case EndTagClose =>
    have g1 := hf.g7 (.inr htt)
    have g0 := inEnd_inStart g1
    obtain ⟨e, k3⟩ := h.ends g1
    have hst := h.out g0
    have hid := idle (by rw [htt]; decide) (by rw [htt]; decide) (by rw [htt]; decide) (by rw [htt]; decide) (by rw [htt]; decide)
    have hl : p'.parents.length = p.parents.length := by simpa using hst.length
    simp only [hu, hc, k3.name, matchDepth_retag hst]
    refine PRes.ite Iff.rfl (fun hd => ?_) (fun _ => ⟨_, rfl, hid⟩)
    rw [hl]
    refine PRes.bind (popUnclosed_retag k3 (by omega)) fun q q' hq => ?_
    rw [t3]
    refine PRes.mono hq.pop (fun r r' hr => ?_)
    have g2 : s1.state.inStart = false := by
      cases h0 : s1.state.inStart with
      | false => rfl
      | true =>
        rcases hf.g1 h0 with h | h
        · rw [g0] at h; cases h
        · rw [htt] at h; cases h
    refine ⟨fun h0 => (by rw [g2] at h0; cases h0), fun _ => hr.stack, fun h0 => ?_, fun _ => ⟨e, hr⟩⟩
    rcases h0 with h0 | h0 <;> (rw [h0] at g2; cases g2)
  all_goals exact ⟨_, rfl, idle (by rw [htt]; decide) (by rw [htt]; decide) (by rw [htt]; decide) (by rw [htt]; decide) (by rw [htt]; decide)⟩

/-! ### Whole texts -/

variable {void : List Str}

/-- Behind the tag the parsers run in parallel. -/
theorem parseLoop_retag {pre pre' : Str} {f : Nat} {s sA sB : Sc} {p p' : PState}
    (hA : Eqv (c.behind pre) sA (s.shift pre.length)) (hB : Eqv (c.behind pre') sB (s.shift pre'.length))
    (hk : ∀ o, moved P l m (o + pre.length) = o + pre'.length) (hP : P < pre.length) (h : PRt P l m A sA.state p p') :
    PRes (fun q q' => ∃ st, PRt P l m A st q q') (parseLoop (c.behind pre) void f p sA)
      (parseLoop (c.behind pre') void f p' sB) := by
  induction f generalizing s sA sB p p' with
  | zero => rfl
  | succ f ih =>
    unfold parseLoop
    have hscA : scan (c.behind pre) (s.shift pre.length) = (scan c s).map (Sc.shift pre.length) := scan_shift
    have hscB : scan (c.behind pre') (s.shift pre'.length) = (scan c s).map (Sc.shift pre'.length) := scan_shift
    have hrA := internalScan_rel hA
    have hrB := internalScan_rel hB
    rw [← scan_eq_internalScan, ← scan_eq_internalScan, hscA] at hrA
    rw [← scan_eq_internalScan, ← scan_eq_internalScan, hscB] at hrB
    cases h1 : scan c s with
    | error e =>
      rw [h1] at hrA hrB
      cases h2 : scan (c.behind pre) sA with
      | ok s2 => rw [h2] at hrA; cases hrA
      | error e' =>
        cases h3 : scan (c.behind pre') sB with
        | ok s2 => rw [h3] at hrB; cases hrB
        | error e' => rw [h2] at hrA; rw [h3] at hrB; cases hrA; cases hrB; rfl
    | ok s1 =>
      rw [h1] at hrA hrB
      cases h2 : scan (c.behind pre) sA with
      | error e' => rw [h2] at hrA; cases hrA
      | ok s2 =>
        cases h3 : scan (c.behind pre') sB with
        | error e' => rw [h3] at hrB; cases hrB
        | ok s3 =>
          rw [h2] at hrA
          rw [h3] at hrB
          cases hrA with
          | ok htA hhA =>
            cases hrB with
            | ok htB hhB =>
              have a1 : s2.tok = s1.tok.shift pre.length := htA
              have a2 : s3.tok = s1.tok.shift pre'.length := htB
              have b1 : s2.tokenType = s1.tokenType := congrArg Tok.type a1
              have b2 : s3.tokenType = s1.tokenType := congrArg Tok.type a2
              have b3 : s2.tokenOffset = s1.tokenOffset + pre.length := congrArg Tok.offset a1
              have b4 : s3.tokenOffset = s1.tokenOffset + pre'.length := congrArg Tok.offset a2
              have b5 : s2.pos = s1.pos + pre.length := congrArg Tok.stop a1
              have b6 : s3.pos = s1.pos + pre'.length := congrArg Tok.stop a2
              have htt : s3.tokenType = s2.tokenType := b2.trans b1.symm
              change PRes _ (if s2.tokenType = .EOS then _ else _) (if s3.tokenType = .EOS then _ else _)
              refine PRes.ite (by rw [htt]) (fun _ => ⟨_, rfl, _, h⟩) (fun hne => ?_)
              have hst := scan_step h2
              have hx : tokenText (c.behind pre') s3 = tokenText (c.behind pre) s2 := by
                rw [tokenText_behind (s := s1) htA, tokenText_behind (s := s1) htB]
              have hstep := parseStep_retag (c := c.behind pre) (c' := c.behind pre') (void := void) h (hst.locFacts hne)
                (hst.infoFacts hne) (s1' := s3) htt (by rw [b4, b3, hk])
                (by simp only [Sc.tokenEnd]; rw [b6, b5, hk])
                (by simp only [Sc.tokenLength]; omega) rfl rfl hx (by omega)
              refine PRes.bind hstep fun q q' hq => ih (s := s1)
                ⟨congrArg Tok.state htA, congrArg Tok.stop htA, hhA⟩ ⟨congrArg Tok.state htB, congrArg Tok.stop htB, hhB⟩ hq

theorem finish_retag {len : Nat} {q q' : Node} {x x' : List Node} (h : RRel P l m A (q :: x) (q' :: x')) :
    (finishAll (moved P l m len) q' x').children = (finishAll len q x).children.map (retag P l m A) := by
  induction x generalizing q q' x' with
  | nil =>
    obtain ⟨r', e, h⟩ := h
    cases e
    exact h
  | cons q2 qs ih =>
    have hlen := h.length
    cases x' with
    | nil => simp at hlen
    | cons q2' qs' =>
      unfold finishAll
      exact ih h.leave

theorem PRt.finish {st : SS} {len : Nat} {p p' : PState} (h : PRt P l m A st p p') :
    (finishAll (moved P l m len) p'.cur p'.parents).children =
      (finishAll len p.cur p.parents).children.map (retag P l m A) := by
  cases hs : st.inStart with
  | false => exact finish_retag (h.out hs)
  | true =>
    obtain ⟨h1, h0, e', h2⟩ := h.inn hs
    have := h1.cons (q := p.cur) e'
    rw [← h2] at this
    exact finish_retag this

/-! ### What is in front of the tag -/

theorem retag_attrs {src : Str} {lo hi : Nat} {x : List (Str × Attr)} (h : ∀ a ∈ x, AttrAt src lo hi a.1 a.2) (hh : hi ≤ P) :
    moveAttrs P l m x = x := by
  unfold moveAttrs
  conv => rhs; rw [← List.map_id x]
  refine List.map_congr_left fun a ha => ?_
  have h1 := h a ha
  have h2 : a.2.offset ≤ P := by
    unfold AttrAt at h1
    obtain ⟨_, _, h1⟩ := h1
    split at h1
    · omega
    · obtain ⟨w, _, _, h1, _⟩ := h1; omega
  obtain ⟨a1, a2, a3⟩ := a
  simp only [moved, if_pos h2, id]

mutual
theorem retag_old : ∀ n : Node, Deep (Done c void) n → n.stop ≤ P → retag P l m A n = n
  | ⟨tag, start, stop, children, closed, ste, ets, attrs⟩, h, hp => by
    obtain ⟨hd, hc⟩ := h
    have hlt := hd.lt
    simp only at hlt hp hc
    have h1 : ste.map (moved P l m) = ste := by
      cases hs : ste with
      | none => rfl
      | some e =>
        obtain ⟨_, _, h1, h2⟩ := hd.ste e hs
        have := h1.le
        simp only at h2
        simp only [Option.map_some, moved]
        rw [if_pos (by omega)]
    have h3 : ste.getD stop ≤ stop := by
      cases hs : ste with
      | none => exact Nat.le_refl _
      | some e =>
        obtain ⟨_, _, h1, h2⟩ := hd.ste e hs
        have := h1.le
        simp only at h2
        simp only [Option.getD_some]; omega
    have h2 : ets.map (moved P l m) = ets := by
      cases hs : ets with
      | none => rfl
      | some e =>
        cases hste : ste with
        | none => have := (hd.noste hste).2.1; simp only at this; rw [hs] at this; cases this
        | some e0 =>
          obtain ⟨_, _, h1, h2⟩ := hd.ste e0 hste
          simp only [contentEnd, hs, Option.getD_some] at h2
          simp only [Option.map_some, moved]
          rw [if_pos (by omega)]
    have h4 : ∀ d ∈ children, d.stop ≤ P := by
      intro d hdm
      cases hste : ste with
      | none => have := (hd.noste hste).1; simp only at this; rw [this] at hdm; cases hdm
      | some e0 =>
        obtain ⟨_, _, h1, h2⟩ := hd.ste e0 hste
        have := (siblings_stop h1 d hdm).2
        simp only at h2
        omega
    rw [retag, retagAll_old children hc h4, h1, h2, if_neg (by omega)]
    have h5 := retag_attrs (l := l) (m := m) hd.attrs (show (ste.getD stop) ≤ P by omega)
    unfold moveAttrs at h5
    simp only at h5
    rw [h5]
    simp only [moved, if_pos hp, if_pos (show start ≤ P by omega)]
theorem retagAll_old : ∀ x : List Node, (∀ d ∈ x, Deep (Done c void) d) → (∀ d ∈ x, d.stop ≤ P) → retagAll P l m A x = x
  | [], _, _ => rfl
  | n :: x, h1, h2 => by
    rw [retagAll, retag_old n (h1 n (by simp)) (h2 n (by simp)),
      retagAll_old x (fun d hd => h1 d (by simp [hd])) (fun d hd => h2 d (by simp [hd]))]
end

theorem Kids.retag {lo hi : Nat} {x : List Node} (h : Kids c void NoLeft lo hi x) (hh : hi ≤ P) :
    x.map (Spec.retag P l m A) = x := by
  rw [← retagAll_map]
  exact retagAll_old x h.done fun d hd => by have := (siblings_stop h.sib d hd).2; omega

theorem retag_init {hi : Nat} {x x' : List Node} (h : StackOK c void NoLeft hi x) (hh : hi ≤ P) (hs : SRel [] 0 x x') :
    RRel P l m A x x' := by
  induction x generalizing hi x' with
  | nil => exact h.elim
  | cons q qs ih =>
    cases qs with
    | nil =>
      obtain ⟨r', e, hr⟩ := hs
      exact ⟨r', e, by rw [hr, List.nil_append, map_shift_zero, Kids.retag h hh]⟩
    | cons q2 qs =>
      obtain ⟨qs', e, hs⟩ := hs
      obtain ⟨ho, h2⟩ := h
      obtain ⟨x, he1, he2, _, _, he5, _, he6⟩ := ho.ste
      have hle := he6.sib.le
      have hlt : q.start < hi := by omega
      rw [shift_zero] at e
      refine ⟨q.stop, qs', ?_, ih h2 (by omega) hs⟩
      rw [e, retag_eq, he6.retag hh, ho.ets, he1, if_neg (by omega), retag_attrs he5 (by omega)]
      simp only [moved, Option.map_some, Option.map_none]
      rw [if_pos (by omega), if_pos (by omega), ← he1, ← ho.ets]
      cases q; rfl

theorem afterStartTag_same {s s' : Sc} {i i' : Nat} {sp sp' : Bool} {lt : Str} {ty ty' : Option Str}
    (h : InOpen s i sp lt ty) (h' : InOpen s' i' sp' lt ty') (ht : ty = none) (ht' : ty' = none) :
    afterStartTag s' = afterStartTag s := by
  unfold afterStartTag
  rw [h.last, h'.last, h.type, h'.type, ht, ht']

theorem parse_retag {u : Uni} {cs : Bool} {pre y : Str} {tag tag' : TagText} {nx ny : List Node}
    (hpre : EndsInContent u cs pre) (hn : TagName tag.name) (hl : tag.Legal) (hl' : tag'.Legal) (he : tag'.name = tag.name)
    (hraw : LegalName tag.name ∨ ∀ a ∈ tag.attrs ++ tag'.attrs, asciiLower a.name ≠ b!"type")
    (hy : (∃ z, y = 62 :: z) ∨ ((∃ z, y = 47 :: 62 :: z) ∧ SlashFree tag ∧ SlashFree tag'))
    (hx : parse u cs void (pre ++ tag.print ++ y) = .ok nx) (hz : parse u cs void (pre ++ tag'.print ++ y) = .ok ny) :
    ny = retagAll pre.length tag.print.length tag'.print.length (tag'.nodes pre.length) nx := by
  obtain ⟨a, t, hp, ht, ha⟩ := hpre
  have e1 : pre ++ tag.print ++ y = a ++ (t ++ (tag.print ++ y)) := by rw [hp]; simp
  have e2 : pre ++ tag'.print ++ y = a ++ (t ++ (tag'.print ++ y)) := by rw [hp]; simp
  have hlen : pre.length = a.length + t.length := by rw [hp]; simp
  rw [e1] at hx
  rw [e2] at hz
  obtain ⟨s, q, q', rx, ry, h1, h2, h3, h4, h5, h6, h7⟩ := parse_to_content ha hx hz
  rw [← e1] at h4 h6 h2
  rw [← e2] at h5 h7
  obtain ⟨sA, h8, h9⟩ := h4.text (t := t) (x := tag.print ++ y) h1 (by simp [parserCfg, e1]) ht
  obtain ⟨sB, h10, h11⟩ := h5.text (t := t) (x := tag'.print ++ y) h1 (by simp [parserCfg, e2]) ht
  rw [← hlen] at h8 h10
  have hin : InContent (parserCfg u cs (pre ++ tag.print ++ y)) void q pre.length :=
    StackOK.mono h2 (by omega) (by simp [parserCfg])
  have hrel : RRel pre.length tag.print.length tag'.print.length (tag'.nodes pre.length) (q.cur :: q.parents)
      (q'.cur :: q'.parents) := retag_init hin (Nat.le_refl _) h3
  have hdA : (parserCfg u cs (pre ++ tag.print ++ y)).src.drop pre.length = tag.print ++ y := by simp [parserCfg]
  have hdB : (parserCfg u cs (pre ++ tag'.print ++ y)).src.drop pre.length = tag'.print ++ y := by simp [parserCfg]
  have hml : ∀ o, moved pre.length tag.print.length tag'.print.length (o + (pre.length + tag.print.length + 1)) =
      o + (pre.length + tag'.print.length + 1) := by
    intro o; unfold moved; rw [if_neg (by omega)]; omega
  have hnode : ∀ (e : Nat) (b : Bool), retag pre.length tag.print.length tag'.print.length (tag'.nodes pre.length)
      { Node.new pre.length (pre ++ tag.print ++ y).length [] with
        tag := some tag.name, attributes := tag.nodes pre.length, closed := b,
        stop := e + (pre.length + tag.print.length + 1), startTagEnd := some (e + (pre.length + tag.print.length + 1)) } =
      { Node.new pre.length (pre ++ tag'.print ++ y).length [] with
        tag := some tag'.name, attributes := tag'.nodes pre.length, closed := b,
        stop := e + (pre.length + tag'.print.length + 1),
        startTagEnd := some (e + (pre.length + tag'.print.length + 1)) } := by
    intro e b
    rw [retag_eq]
    simp only [Node.new, Option.map_some, hml, he, if_true, List.map_nil, Option.map_none]
    simp [moved]
  -- behind the start tags
  obtain ⟨z, k, sA', sB', r, r', hyz, hpA, hpB, hst, hs0, hoA, hoB, hR⟩ : ∃ (z : Str) (k : Nat) (sA' sB' : Sc) (r r' : PState),
      y.drop (k + 1) = z ∧ sA'.pos = k + (pre.length + tag.print.length + 1) ∧
      sB'.pos = k + (pre.length + tag'.print.length + 1) ∧ sB'.state = sA'.state ∧
      (sA'.state.inStart = false ∧ sA'.state.inEnd = false ∧ k + 1 ≤ y.length) ∧
      Out (parserCfg u cs (pre ++ tag.print ++ y)) void r sA' rx ∧
      Out (parserCfg u cs (pre ++ tag'.print ++ y)) void r' sB' ry ∧
      RRel pre.length tag.print.length tag'.print.length (tag'.nodes pre.length) (r.cur :: r.parents)
        (r'.cur :: r'.parents) := by
    rcases hy with ⟨z, rfl⟩ | ⟨⟨z, rfl⟩, hf, hf'⟩
    · obtain ⟨s1, p1, sp, ty, hs1, hty1, hty2, g1, hc1, hp1⟩ := h9.start h8 hdA hn hl (.inl rfl)
      obtain ⟨s1', p1', sp', ty', hs1', hty1', hty2', g1', hc1', hp1'⟩ :=
        h11.start h10 hdB (he ▸ hn) hl' (.inl rfl)
      obtain ⟨s2, p2, hs2, hst2, g2, hx2⟩ := g1.close hs1 (drop_add hdA rfl) (by rw [hp1]; simp)
      obtain ⟨s2', p2', hs2', hst2', g2', hx2'⟩ := g1'.close hs1' (drop_add hdB rfl) (by rw [hp1']; simp)
      have hss : s2'.state = s2.state := by
        rw [hst2, hst2']
        rcases hraw with hraw | hraw
        · rw [afterStartTag_html hs1 (.inl hraw), afterStartTag_html hs1' (.inl (he ▸ hraw))]
        · have hs1'' : InOpen s1' (pre.length + tag'.print.length) sp' (keptName (parserCfg u cs (pre ++ tag.print ++ 62 :: z)) tag.name) ty' := by
            rw [← he]; exact hs1'
          exact afterStartTag_same hs1 hs1'' (hty1 fun a ha h => absurd h (hraw a (by simp [ha])))
            (hty1' fun a ha h => absurd h (hraw a (by simp [ha])))
      have hs2st : s2.state.inStart = false ∧ s2.state.inEnd = false := by
        rw [hst2]
        unfold afterStartTag
        split
        · split <;> exact ⟨rfl, rfl⟩
        · split <;> exact ⟨rfl, rfl⟩
      refine ⟨z, 0, s2, s2', p2, p2', rfl, by rw [hs2]; omega, by rw [hs2']; omega, hss,
        ⟨hs2st.1, hs2st.2, by simp⟩, g2, g2', ?_⟩
      rw [hc1] at hx2
      rw [hc1'] at hx2'
      simp only [Option.any_some, he] at hx2 hx2'
      by_cases hv : void.contains tag.name = true
      · rw [if_pos hv] at hx2 hx2'
        simp only [PState.pop, hp1, hp1'] at hx2 hx2'
        cases hx2; cases hx2'
        have := hnode 0 true
        simp only [he, Nat.zero_add] at this
        have h0 := hrel.add (n := { Node.new pre.length (pre ++ tag.print ++ 62 :: z).length [] with
          tag := some tag.name, attributes := tag.nodes pre.length, closed := true,
          stop := pre.length + tag.print.length + 1, startTagEnd := some (pre.length + tag.print.length + 1) })
        rw [this] at h0
        exact h0
      · rw [if_neg hv] at hx2 hx2'
        cases hx2; cases hx2'
        have := hnode 0 false
        simp only [he, Nat.zero_add] at this
        have h0 := hrel.cons (q := { Node.new pre.length (pre ++ tag.print ++ 62 :: z).length [] with
          tag := some tag.name, attributes := tag.nodes pre.length, closed := false,
          stop := pre.length + tag.print.length + 1, startTagEnd := some (pre.length + tag.print.length + 1) })
          (pre.length + tag'.print.length + 1)
        rw [this] at h0
        simp only [hp1, hp1']
        exact h0
    · obtain ⟨s1, p1, sp, ty, hs1, hty1, hty2, g1, hc1, hp1⟩ := h9.start h8 hdA hn hl (.inr ⟨rfl, hf⟩)
      obtain ⟨s1', p1', sp', ty', hs1', hty1', hty2', g1', hc1', hp1'⟩ :=
        h11.start h10 hdB (he ▸ hn) hl' (.inr ⟨rfl, hf'⟩)
      obtain ⟨s2, p2, hs2, g2, hx2⟩ := g1.selfClose hs1 (drop_add hdA rfl) (by rw [hp1]; simp)
      obtain ⟨s2', p2', hs2', g2', hx2'⟩ := g1'.selfClose hs1' (drop_add hdB rfl) (by rw [hp1']; simp)
      refine ⟨z, 1, s2, s2', p2, p2', rfl, by rw [hs2.pos]; omega, by rw [hs2'.pos]; omega,
        hs2'.state.trans hs2.state.symm, ⟨by rw [hs2.state]; rfl, by rw [hs2.state]; rfl, by simp⟩, g2, g2', ?_⟩
      rw [hc1] at hx2
      rw [hc1'] at hx2'
      simp only [PState.pop, hp1, hp1'] at hx2 hx2'
      cases hx2; cases hx2'
      have := hnode 1 true
      have h0 := hrel.add (n := { Node.new pre.length (pre ++ tag.print ++ 47 :: 62 :: z).length [] with
        tag := some tag.name, attributes := tag.nodes pre.length, closed := true,
        stop := 1 + (pre.length + tag.print.length + 1), startTagEnd := some (1 + (pre.length + tag.print.length + 1)) })
      rw [this] at h0
      have f1 : 1 + (pre.length + tag.print.length + 1) = pre.length + tag.print.length + 2 := by omega
      have f2 : 1 + (pre.length + tag'.print.length + 1) = pre.length + tag'.print.length + 2 := by omega
      rw [f1, f2] at h0
      exact h0
  obtain ⟨hs0, hs1, hk⟩ := hs0
  have hsplit : y = y.take (k + 1) ++ z := by rw [← hyz, List.take_append_drop]
  have hb : ∀ x : Str, pre ++ x ++ y = (pre ++ x ++ y.take (k + 1)) ++ z := by
    intro x; conv => lhs; rw [hsplit]
    simp
  have hbl : ∀ x : Str, (pre ++ x ++ y.take (k + 1)).length = k + (pre.length + x.length + 1) := by
    intro x; simp only [List.length_append, List.length_take]; omega
  have hcA : parserCfg u cs (pre ++ tag.print ++ y) = (parserCfg u cs z).behind (pre ++ tag.print ++ y.take (k + 1)) := by
    rw [hb]; rfl
  have hcB : parserCfg u cs (pre ++ tag'.print ++ y) = (parserCfg u cs z).behind (pre ++ tag'.print ++ y.take (k + 1)) := by
    rw [hb]; rfl
  rw [hcA] at hoA
  rw [hcB] at hoB
  obtain ⟨fA, hoA⟩ := hoA
  obtain ⟨fB, hoB⟩ := hoB
  have hoA := parseLoop_more (g := fB) hoA
  have hoB := parseLoop_more (g := fA) hoB
  rw [Nat.add_comm fB fA] at hoB
  have hsim := parseLoop_retag (c := parserCfg u cs z) (void := void) (pre := pre ++ tag.print ++ y.take (k + 1))
    (pre' := pre ++ tag'.print ++ y.take (k + 1)) (f := fA + fB) (P := pre.length) (l := tag.print.length)
    (m := tag'.print.length) (A := tag'.nodes pre.length) (s := Sc.new 0 sA'.state)
    (eqv_new _ rfl (by rw [hbl, hpA]) hs0) (eqv_new _ hst (by rw [hbl, hpB]) hs0)
    (by intro o; rw [hbl, hbl, ← Nat.add_assoc, hml, Nat.add_assoc]) (by rw [hbl]; omega)
    (.outer hs0 hs1 hR)
  rw [hoA, hoB] at hsim
  obtain ⟨r', e, st, hfin⟩ := hsim
  cases e
  have := hfin.finish (len := (pre ++ tag.print ++ y).length)
  rw [retagAll_map, ← h6, ← h7, ← this]
  congr 2
  have hyl : 1 ≤ y.length := by omega
  unfold moved
  simp only [List.length_append]
  rw [if_neg (by omega)]
  omega

end Html
