import Verif.Spec.Renamed
import Verif.Proof.Retag
import Verif.Proof.FoldTree
import Verif.Proof.Cut

/-! # The nodes of a text in which an element gets another name -/

namespace Html
open Spec

variable {P : Nat} {N : Str} {μ : Nat → Nat} {G : Prop} {F : Str → Prop} {c : Cfg}

/-- The attributes of an element, moved. -/
def moveA (μ : Nat → Nat) (x : List (Str × Attr)) : List (Str × Attr) := x.map fun a => (a.1, ⟨a.2.value, μ a.2.offset⟩)

theorem renamedAll_map (x : List Node) : renamedAll P N μ x = x.map (renamed P N μ) := by
  induction x with
  | nil => rfl
  | cons n x ih => rw [renamedAll, ih]; rfl

theorem renamed_eq (n : Node) : renamed P N μ n =
    ⟨if n.start = P then some N else n.tag, μ n.start, μ n.stop, n.children.map (renamed P N μ), n.closed,
      n.startTagEnd.map μ, n.endTagStart.map μ, moveA μ n.attributes⟩ := by
  cases n
  rw [renamed, renamedAll_map]
  rfl

theorem moveA_insert (x : List (Str × Attr)) (a : Str) (v : Attr) :
    moveA μ (attrInsert x a v) = attrInsert (moveA μ x) a ⟨v.value, μ v.offset⟩ := by
  induction x with
  | nil => rfl
  | cons b x ih =>
    obtain ⟨b1, b2⟩ := b
    simp only [attrInsert, moveA, List.map_cons] at ih ⊢
    split
    · simp
    · simp [ih]

theorem moveA_set (x : List (Str × Attr)) (a v : Str) :
    attrSetValue (moveA μ x) a v = (attrSetValue x a v).map (moveA μ) := by
  induction x with
  | nil => rfl
  | cons b x ih =>
    obtain ⟨b1, b2⟩ := b
    simp only [attrSetValue, moveA, List.map_cons] at ih ⊢
    split
    · rfl
    · rw [ih]
      cases attrSetValue x a v <;> rfl

/-- What is known of an open element: its name, if it is behind the renamed one (`F`), or that it is another one (`G`);
and in front of the renamed one there is no other. -/
def NK (P : Nat) (G : Prop) (F : Str → Prop) (n : Node) (x : List Node) : Prop :=
  (G → n.start ≠ P) ∧ (P < n.start → ∀ t, n.tag = some t → F t) ∧ (n.start ≤ P → ∀ k ∈ x.dropLast, k.start ≠ P)

/-! ### Related stacks -/

/-- The stacks behind the tag; the ends of open elements do not matter. -/
def RN (P : Nat) (N : Str) (μ : Nat → Nat) (G : Prop) (F : Str → Prop) : List Node → List Node → Prop
  | [], _ => False
  | [r], l' => ∃ r', l' = [r'] ∧ r'.children = r.children.map (renamed P N μ)
  | q :: q2 :: qs, l' => NK P G F q (q2 :: qs) ∧ ∃ e' qs', l' = { renamed P N μ q with stop := e' } :: qs' ∧ RN P N μ G F (q2 :: qs) qs'

theorem RN.length {x x' : List Node} (h : RN P N μ G F x x') : x'.length = x.length := by
  induction x generalizing x' with
  | nil => exact h.elim
  | cons q qs ih =>
    cases qs with
    | nil => obtain ⟨r', e, _⟩ := h; rw [e]; rfl
    | cons q2 qs => obtain ⟨_, _, qs', e, h⟩ := h; rw [e, List.length_cons, ih h]; rfl

theorem RN.ne {x x' : List Node} (h : RN P N μ G F x x') : x ≠ [] ∧ x' ≠ [] := by
  cases x with
  | nil => exact h.elim
  | cons q qs =>
    refine ⟨by simp, fun e => ?_⟩
    have := h.length
    rw [e] at this
    simp at this

theorem RN.cons {q : Node} {x x' : List Node} (h : RN P N μ G F x x') (hk : NK P G F q x) (e : Nat) :
    RN P N μ G F (q :: x) ({ renamed P N μ q with stop := e } :: x') := by
  cases x with
  | nil => exact h.elim
  | cons q2 qs => exact ⟨hk, e, x', rfl, h⟩

theorem RN.uncons {q q' : Node} {x x' : List Node} (h : RN P N μ G F (q :: x) (q' :: x')) (hl : x ≠ []) :
    (∃ e', q' = { renamed P N μ q with stop := e' }) ∧ RN P N μ G F x x' ∧ NK P G F q x := by
  cases x with
  | nil => exact absurd rfl hl
  | cons q2 qs =>
    obtain ⟨hk, e', _, e, h⟩ := h
    cases e
    exact ⟨⟨e', rfl⟩, h, hk⟩

theorem RN.add {q q' n : Node} {x x' : List Node} (h : RN P N μ G F (q :: x) (q' :: x')) :
    RN P N μ G F (q.addChild n :: x) (q'.addChild (renamed P N μ n) :: x') := by
  cases x with
  | nil =>
    obtain ⟨r', e, h⟩ := h
    cases e
    refine ⟨_, rfl, ?_⟩
    simp only [Node.addChild, h, List.map_append, List.map_cons, List.map_nil]
  | cons q2 qs =>
    obtain ⟨⟨e', h2⟩, h3, hk⟩ := h.uncons (by simp)
    refine ⟨hk, e', _, ?_, h3⟩
    rw [h2]
    simp only [Node.addChild, renamed_eq, List.map_append, List.map_cons, List.map_nil]

/-- The innermost element ends. -/
theorem RN.close {q q' q2 q2' : Node} {x x' : List Node} (h : RN P N μ G F (q :: q2 :: x) (q' :: q2' :: x'))
    {e : Nat} {b : Bool} {o : Option Nat} :
    RN P N μ G F (q2.addChild { q with stop := e, closed := b, endTagStart := o } :: x)
      (q2'.addChild { q' with stop := μ e, closed := b, endTagStart := o.map (μ) } :: x') := by
  obtain ⟨⟨e', h2⟩, h3, -⟩ := h.uncons (by simp)
  have := h3.add (n := { q with stop := e, closed := b, endTagStart := o })
  rw [renamed_eq] at this
  rw [h2, renamed_eq]
  exact this

/-- The innermost element is left open. -/
theorem RN.leave {q q' q2 q2' : Node} {x x' : List Node} (h : RN P N μ G F (q :: q2 :: x) (q' :: q2' :: x'))
    {e : Nat} :
    RN P N μ G F (q2.addChild { q with stop := e, closed := false } :: x)
      (q2'.addChild { q' with stop := μ e, closed := false } :: x') := by
  have h0 := h.close (e := e) (o := q.endTagStart) (b := false)
  obtain ⟨⟨e', h2⟩, h3, -⟩ := h.uncons (by simp)
  have : q'.endTagStart = q.endTagStart.map (μ) := by rw [h2, renamed_eq]
  rw [← this] at h0
  exact h0

/-- The name of an end tag, as the parser keeps it. -/
def NF (c : Cfg) (F : Str → Prop) (nm : Option Str) : Prop :=
  ∃ raw : Option Str, nm = raw.map (foldName c.uni c.caseSensitive) ∧ ∀ t, raw = some t → F t

/-- The names of the end tags of two texts: the same. -/
def SameEnd (c : Cfg) (F : Str → Prop) (nm nm' : Option Str) : Prop := nm' = nm ∧ NF c F nm

/-- States of the two parsers, outside start tags, in an end tag that starts at `e`. -/
structure ERn (R : Option Str → Option Str → Prop) (P : Nat) (N : Str) (μ : Nat → Nat) (G : Prop) (F : Str → Prop) (e : Nat) (p p' : PState) : Prop where
  stack : RN P N μ G F (p.cur :: p.parents) (p'.cur :: p'.parents)
  start : p.endTagStart = some e
  start' : p'.endTagStart = some (μ e)
  name : R p.endTagName p'.endTagName

/-- States of the two parsers when the scanner is in state `st`. -/
structure PRn (c : Cfg) (P : Nat) (N : Str) (μ : Nat → Nat) (G : Prop) (F : Str → Prop) (st : SS) (p p' : PState) : Prop where
  inn : st.inStart = true → RN P N μ G F p.parents p'.parents ∧ NK P G F p.cur p.parents ∧ P < p.cur.start ∧
    ∃ e', p'.cur = { renamed P N μ p.cur with stop := e' }
  out : st.inStart = false → RN P N μ G F (p.cur :: p.parents) (p'.cur :: p'.parents)
  pend : st = .AfterAttributeName ∨ st = .BeforeAttributeValue → p'.pending = p.pending
  ends : st.inEnd = true → ∃ e, ERn (SameEnd c F) P N μ G F e p p'

theorem ERn.pop {R : Option Str → Option Str → Prop} {e x : Nat} {p p' : PState} (h : ERn R P N μ G F e p p') :
    PRes (fun q q' => ERn R P N μ G F e q q')
      ({ p with cur := { p.cur with closed := true, endTagStart := p.endTagStart, stop := x } } : PState).pop
      ({ p' with cur := { p'.cur with closed := true, endTagStart := p'.endTagStart, stop := μ x } } : PState).pop := by
  obtain ⟨cur, ps, es, en, pe⟩ := p
  obtain ⟨cur', ps', es', en', pe'⟩ := p'
  obtain ⟨h1, h2, h3, h4⟩ := h
  simp only at h1 h2 h3 h4
  subst h2 h3
  have hl := h1.length
  cases ps with
  | nil =>
    cases ps' with
    | nil => rfl
    | cons => simp at hl
  | cons q qs =>
    cases ps' with
    | nil => simp at hl
    | cons q' qs' =>
      exact ⟨_, rfl, h1.close (o := some e) (b := true), rfl, rfl, h4⟩

theorem popUnclosed_ren {R : Option Str → Option Str → Prop} {n e : Nat} {p p' : PState} (h : ERn R P N μ G F e p p') (hn : n ≤ p.parents.length) :
    PRes (fun q q' => ERn R P N μ G F e q q') (popUnclosed n p) (popUnclosed n p') := by
  induction n generalizing p p' with
  | zero => exact ⟨p', rfl, h⟩
  | succ n ih =>
    obtain ⟨cur, ps, es, en, pe⟩ := p
    obtain ⟨cur', ps', es', en', pe'⟩ := p'
    obtain ⟨h1, h2, h3, h4⟩ := h
    simp only at h1 h2 h3 h4 hn
    subst h2 h3
    have hl := h1.length
    cases ps with
    | nil => simp at hn
    | cons q qs =>
      cases ps' with
      | nil => simp at hl
      | cons q' qs' =>
        have h0 : ERn R P N μ G F e ⟨q.addChild { cur with stop := e, closed := false }, qs, some e, en, pe⟩
            ⟨q'.addChild { cur' with stop := μ e, closed := false }, qs', some (μ e), en', pe'⟩ :=
          ⟨h1.leave, rfl, rfl, h4⟩
        simp only [List.length_cons] at hn
        exact ih h0 (by simp only; omega)

/-- The end tag closes the element that starts at `P`. -/
def Hit (P : Nat) (u : Uni) (cs : Bool) (nm : Option Str) : Node → List Node → Prop
  | _, [] => False
  | n, q :: qs => (n.isSameTag u nm cs = true ∧ n.start = P) ∨ (n.isSameTag u nm cs = false ∧ Hit P u cs nm q qs)

theorem matchDepth_ren {nm : Option Str} {q q' : Node} {x x' : List Node} (hnm : NF c F nm)
    (hG : G ∨ (∀ t, F t → ¬ SameName c.uni c.caseSensitive (some N) (some t)) ∧ ¬ Hit P c.uni c.caseSensitive nm q x)
    (h : RN P N μ G F (q :: x) (q' :: x')) :
    matchDepth c.uni c.caseSensitive nm q' x' = matchDepth c.uni c.caseSensitive nm q x := by
  induction x generalizing q q' x' with
  | nil =>
    obtain ⟨r', e, _⟩ := h
    cases e
    rfl
  | cons q2 qs ih =>
    have hl := h.length
    cases x' with
    | nil => simp at hl
    | cons q2' qs' =>
      have hl' : (q2' :: qs').length = (q2 :: qs).length := by simpa using hl
      obtain ⟨⟨e', e⟩, h, hk⟩ := h.uncons (by simp)
      unfold matchDepth
      by_cases hs : q.start = P
      · rcases hG with hG | ⟨hF, hH⟩
        · exact absurd hs (hk.1 hG)
        have h1 : q.isSameTag c.uni nm c.caseSensitive = false := by
          cases h0 : q.isSameTag c.uni nm c.caseSensitive with
          | false => rfl
          | true => exact absurd (.inl ⟨h0, hs⟩) hH
        have h2 : q'.isSameTag c.uni nm c.caseSensitive = false := by
          cases h0 : q'.isSameTag c.uni nm c.caseSensitive with
          | false => rfl
          | true =>
            obtain ⟨raw, rfl, hr⟩ := hnm
            have h3 := (isSameTag_iff ..).1 h0
            have h4 : q'.tag = some N := by rw [e, renamed_eq]; exact if_pos hs
            rw [h4] at h3
            cases raw with
            | none => unfold SameName at h3; split at h3 <;> cases h3
            | some t => exact absurd h3 (hF t (hr t rfl))
        rw [h1, h2]
        exact ih (.inr ⟨hF, fun h0 => hH (.inr ⟨h1, h0⟩)⟩) h
      · have : q'.isSameTag c.uni nm c.caseSensitive = q.isSameTag c.uni nm c.caseSensitive := by
          rw [e, renamed_eq, if_neg hs]; rfl
        rw [this]
        cases h0 : q.isSameTag c.uni nm c.caseSensitive with
        | true => simp only [if_true, hl']
        | false =>
          refine ih ?_ h
          rcases hG with hG | ⟨hF, hH⟩
          · exact .inl hG
          · exact .inr ⟨hF, fun h1 => hH (.inr ⟨h0, h1⟩)⟩

theorem Hit.pos {u : Uni} {cs : Bool} {nm : Option Str} {q : Node} {x : List Node} (h : Hit P u cs nm q x) :
    0 < matchDepth u cs nm q x := by
  induction x generalizing q with
  | nil => exact h.elim
  | cons q2 qs ih =>
    unfold matchDepth
    rcases h with ⟨h, _⟩ | ⟨h, h'⟩
    · rw [h]; simp
    · rw [h]; exact ih h'

theorem Hit.child {u : Uni} {cs : Bool} {nm : Option Str} {q n : Node} {x : List Node} :
    Hit P u cs nm (q.addChild n) x ↔ Hit P u cs nm q x := by
  cases x <;> exact Iff.rfl

/-- The element that is closed, from the stack. -/
theorem popUnclosed_hit {u : Uni} {cs : Bool} {nm : Option Str} {ps : List Node} {p p1 : PState} (hps : p.parents = ps)
    (hd : 0 < matchDepth u cs nm p.cur ps) (h : popUnclosed (ps.length - matchDepth u cs nm p.cur ps) p = .ok p1) :
    (p1.cur.start = P ↔ Hit P u cs nm p.cur ps) ∧ p1.endTagStart = p.endTagStart := by
  induction ps generalizing p with
  | nil => simp [matchDepth] at hd
  | cons q qs ih =>
    unfold matchDepth at h hd
    cases h0 : p.cur.isSameTag u nm cs with
    | true =>
      rw [h0] at h
      simp only [if_true, Nat.sub_self, popUnclosed] at h
      cases h
      exact ⟨⟨fun h1 => .inl ⟨h0, h1⟩, fun h1 => by
        rcases h1 with ⟨_, h1⟩ | ⟨h1, _⟩
        · exact h1
        · rw [h0] at h1; cases h1⟩, rfl⟩
    | false =>
      rw [h0] at h hd
      simp only [Bool.false_eq_true, if_false] at h hd
      have hle : matchDepth u cs nm q qs ≤ qs.length := matchDepth_le'
      rw [show (q :: qs).length - matchDepth u cs nm q qs = (qs.length - matchDepth u cs nm q qs) + 1 by
        simp only [List.length_cons]; omega] at h
      unfold popUnclosed at h
      obtain ⟨e, _, h⟩ := bind_ok h
      obtain ⟨p2, h2, h⟩ := bind_ok h
      simp only [PState.pop, hps, Except.ok.injEq] at h2
      subst h2
      have := ih (p := ⟨q.addChild { p.cur with stop := e, closed := false }, qs, p.endTagStart, p.endTagName, p.pending⟩) rfl
        (by rw [matchDepth_addChild]; exact hd) (by rw [matchDepth_addChild]; exact h)
      refine ⟨this.1.trans (Hit.child.trans ?_), this.2⟩
      exact ⟨fun h1 => .inr ⟨h0, h1⟩, fun h1 => by
        rcases h1 with ⟨h1, _⟩ | ⟨_, h1⟩
        · rw [h0] at h1; cases h1
        · exact h1⟩

/-- An end tag that closes the element that starts at `P`. -/
theorem Hit.closes {void : List Str} {s1 : Sc} {p q : PState} (h : Hit P c.uni c.caseSensitive p.endTagName p.cur p.parents)
    (ht : s1.tokenType = .EndTagClose) (hq : parseStep c void p s1 = .ok q) :
    Has (fun k => k.start = P ∧ k.closed = true ∧ k.stop = s1.tokenEnd ∧ k.endTagStart = p.endTagStart)
      (q.cur :: q.parents) := by
  simp only [parseStep, ht] at hq
  rw [if_pos h.pos] at hq
  obtain ⟨p1, h1, hq⟩ := bind_ok hq
  have h2 := popUnclosed_hit (P := P) rfl h.pos h1
  have h3 := (Finished.pop hq { p1.cur with closed := true, endTagStart := p1.endTagStart, stop := s1.tokenEnd }).2 (.inr rfl)
  obtain ⟨x, hx, h3⟩ := h3
  exact ⟨x, hx, _, h3, h2.1.2 h, rfl, rfl, h2.2⟩

/-! ### One step -/

theorem PRn.idle {s s1 : Sc} {p p' : PState} (h : PRn c P N μ G F s.state p p') (hf : LocFacts s s1) (hi : InfoFacts s s1)
    (h1 : s1.tokenType ≠ .StartTagOpen) (h2 : s1.tokenType ≠ .StartTagClose) (h3 : s1.tokenType ≠ .StartTagSelfClose)
    (h4 : s1.tokenType ≠ .EndTagOpen) (h5 : s1.tokenType ≠ .AttributeName) : PRn c P N μ G F s1.state p p' where
  inn hs := h.inn ((hf.g1 hs).resolve_right h1)
  out hs := by
    refine h.out ?_
    cases h0 : s.state.inStart with
    | false => rfl
    | true =>
      rcases hf.g2 h0 with h6 | h6 | h6
      · rw [hs] at h6; cases h6
      · exact absurd h6 h2
      · exact absurd h6 h3
  pend hs := by
    rcases hi.f4 hs with h6 | ⟨_, h6⟩
    · exact absurd h6 h5
    · exact h.pend (.inl h6)
  ends hs := h.ends ((hf.g5 hs).resolve_right h4)

/-- Inside a start tag only the innermost node changes. -/
theorem PRn.inner {st : SS} {q q' : PState} (h : st.inStart = true) (h1 : RN P N μ G F q.parents q'.parents)
    (hk : NK P G F q.cur q.parents) (h0 : P < q.cur.start) (h2 : ∃ e', q'.cur = { renamed P N μ q.cur with stop := e' })
    (h3 : st = .AfterAttributeName ∨ st = .BeforeAttributeValue → q'.pending = q.pending) : PRn c P N μ G F st q q' :=
  ⟨fun _ => ⟨h1, hk, h0, h2⟩, fun h0 => (by rw [h] at h0; cases h0), h3, fun h0 => (by rw [inStart_inEnd h] at h0; cases h0)⟩

/-- Outside tags. -/
theorem PRn.outer {st : SS} {q q' : PState} (h : st.inStart = false) (h0 : st.inEnd = false)
    (h1 : RN P N μ G F (q.cur :: q.parents) (q'.cur :: q'.parents)) : PRn c P N μ G F st q q' :=
  ⟨fun h2 => (by rw [h] at h2; cases h2), fun _ => h1, fun h2 => (by rcases h2 with rfl | rfl <;> cases h),
    fun h2 => (by rw [h0] at h2; cases h2)⟩

/-- The end of a start tag that also ends the element. -/
theorem pop_ren {p p' : PState} {n : Node} (h : RN P N μ G F p.parents p'.parents) (hp : p.cur = n)
    (hp' : p'.cur = renamed P N μ n) :
    PRes (fun q q' => RN P N μ G F (q.cur :: q.parents) (q'.cur :: q'.parents)) p.pop p'.pop := by
  obtain ⟨cur, ps, es, en, pe⟩ := p
  obtain ⟨cur', ps', es', en', pe'⟩ := p'
  simp only at h hp hp'
  subst hp hp'
  have hl := h.length
  cases ps with
  | nil => exact h.elim
  | cons q qs =>
    cases ps' with
    | nil => simp at hl
    | cons q' qs' => exact ⟨_, rfl, h.add⟩

theorem parseStep_ren {c' : Cfg} {void : List Str} {s s1 s1' : Sc} {p p' : PState} (h : PRn c P N μ G F s.state p p')
    (hf : LocFacts s s1) (hi : InfoFacts s s1) (t1 : s1'.tokenType = s1.tokenType)
    (t2 : s1'.tokenOffset = μ s1.tokenOffset) (t3 : s1'.tokenEnd = μ s1.tokenEnd)
    (t4 : s1'.tokenLength = s1.tokenLength) (hu : c'.uni = c.uni)
    (hc : c'.caseSensitive = c.caseSensitive) (hx : isEndTT s1.tokenType = false → tokenText c' s1' = tokenText c s1)
    (hP : P < s1.tokenOffset)
    (hF : s1.tokenType = .StartTag ∨ s1.tokenType = .EndTag → ∀ t, tokenText c s1 = .ok t → F t)
    (hM : s1.tokenType = .EndTagClose → G ∨ (∀ t, F t → ¬ SameName c.uni c.caseSensitive (some N) (some t)) ∧
      ¬ Hit P c.uni c.caseSensitive p.endTagName p.cur p.parents) :
    PRes (PRn c P N μ G F s1.state) (parseStep c void p s1) (parseStep c' void p' s1') := by
  have idle := fun h1 h2 h3 h4 h5 => h.idle hf hi h1 h2 h3 h4 h5
  unfold parseStep
  rw [t1]
  cases htt : s1.tokenType
  case StartTagOpen =>
    obtain ⟨g1, g2, g3, g4⟩ := hf.g4 htt
    refine ⟨_, rfl, .inner g2 (h.out g1) ?_ ?_ ⟨c'.src.length, ?_⟩ (fun h => by rcases h with h | h <;> contradiction)⟩
    · exact ⟨fun _ => Nat.ne_of_gt hP, fun _ t ht => (by cases ht), fun h0 => by simp only [Node.new] at h0; omega⟩
    · exact hP
    · simp only [Node.new, renamed_eq, t2]
      rw [if_neg (by omega)]
      rfl
  case StartTag =>
    have g1 := hi.f1 (.inl htt)
    have g2 : s1.state.inStart = true := by rcases hf.g2 g1 with h | h | h <;> first | exact h | (rw [htt] at h; cases h)
    refine PRes.bindEq (hx (by rw [htt]; rfl)) fun t htx => ⟨_, rfl, ?_⟩
    obtain ⟨g3, gk, g5, e', g4⟩ := h.inn g1
    refine .inner g2 g3 ⟨gk.1, fun _ t' ht' => ?_, gk.2.2⟩ g5 ⟨e', ?_⟩ (fun h0 => ?_)
    · cases ht'
      exact hF (.inl htt) _ htx
    · simp only [g4, renamed_eq]
      rw [if_neg (by omega)]
    · rcases hi.f4 h0 with h | ⟨h | h, _⟩ <;> (rw [htt] at h; cases h)
  case AttributeName =>
    have g1 := hi.f1 (.inr htt)
    have g2 : s1.state.inStart = true := by rcases hf.g2 g1 with h | h | h <;> first | exact h | (rw [htt] at h; cases h)
    refine PRes.bindEq (hx (by rw [htt]; rfl)) fun t _ => ⟨_, rfl, ?_⟩
    obtain ⟨g3, gk, g5, e', g4⟩ := h.inn g1
    refine .inner g2 g3 gk g5 ⟨e', ?_⟩ (fun h0 => rfl)
    simp only [g4, renamed_eq, t2]
    rw [moveA_insert]
  case DelimiterAssign =>
    have g0 := hi.f2 htt
    have g1 : s.state.inStart = true := by rw [g0]; rfl
    have g2 : s1.state.inStart = true := by rcases hf.g2 g1 with h | h | h <;> first | exact h | (rw [htt] at h; cases h)
    have g5 := h.pend (.inl g0)
    obtain ⟨g3, gk, g6, e', g4⟩ := h.inn g1
    simp only [g5]
    cases hp : p.pending with
    | none =>
      exact ⟨_, rfl, .inner g2 g3 gk g6 ⟨e', g4⟩ (fun _ => g5)⟩
    | some a =>
      have e1 : attrSetValue p'.cur.attributes a [] = (attrSetValue p.cur.attributes a []).map (moveA μ) := by
        rw [g4, renamed_eq]; exact moveA_set ..
      simp only [e1]
      cases attrSetValue p.cur.attributes a [] with
      | error e => rfl
      | ok m =>
        refine ⟨_, rfl, .inner g2 g3 gk g6 ⟨e', ?_⟩ (fun _ => ?_)⟩
        · simp only [g4, renamed_eq]
        · rfl
  case AttributeValue =>
    obtain ⟨g0, g2⟩ := hi.f3 htt
    have g1 : s.state.inStart = true := by rw [g0]; rfl
    have g2 : s1.state.inStart = true := by rw [g2]; rfl
    have g5 := h.pend (.inr g0)
    obtain ⟨g3, gk, g7, e', g4⟩ := h.inn g1
    have g6 : ¬ (s1.state = .AfterAttributeName ∨ s1.state = .BeforeAttributeValue) := by
      intro h0
      rcases hi.f4 h0 with h | ⟨h | h, _⟩ <;> (rw [htt] at h; cases h)
    refine PRes.bindEq (hx (by rw [htt]; rfl)) fun t _ => ?_
    simp only [g5]
    cases hp : p.pending with
    | none =>
      exact ⟨_, rfl, .inner g2 g3 gk g7 ⟨e', g4⟩ (fun _ => g5)⟩
    | some a =>
      have e1 : attrSetValue p'.cur.attributes a t = (attrSetValue p.cur.attributes a t).map (moveA μ) := by
        rw [g4, renamed_eq]; exact moveA_set ..
      simp only [e1]
      cases attrSetValue p.cur.attributes a t with
      | error e => rfl
      | ok m =>
        refine ⟨_, rfl, .inner g2 g3 gk g7 ⟨e', ?_⟩ (fun h0 => absurd h0 g6)⟩
        simp only [g4, renamed_eq]
  case StartTagClose =>
    obtain ⟨g1, g2⟩ := hf.g3 (.inl htt)
    have g2' : s1.state.inEnd = false := by
      cases h0 : s1.state.inEnd with
      | false => rfl
      | true =>
        rcases hf.g5 h0 with h | h
        · rw [inEnd_inStart h] at g1; cases g1
        · rw [htt] at h; cases h
    obtain ⟨g3, gk, g5, e', g4⟩ := h.inn g1
    have e1 : p.parents.isEmpty = false := by
      cases hp : p.parents with
      | nil => exact absurd hp g3.ne.1
      | cons => rfl
    have e2 : p'.parents.isEmpty = false := by
      cases hp : p'.parents with
      | nil => exact absurd hp g3.ne.2
      | cons => rfl
    simp only [e1, e2, Bool.false_eq_true, if_false, t4]
    have e3 : p'.cur.tag = p.cur.tag := by rw [g4, renamed_eq]; exact if_neg (by omega)
    refine PRes.ite Iff.rfl (fun _ => PRes.ite (by rw [e3]) (fun _ => ?_) (fun _ => ?_)) (fun _ => ?_)
    · refine PRes.mono (pop_ren (n := { p.cur with stop := s1.tokenEnd, startTagEnd := some s1.tokenEnd, closed := true })
        g3 rfl ?_) (fun q q' hq => .outer g2 g2' hq)
      simp only [g4, renamed_eq, t3]
      rfl
    · refine ⟨_, rfl, .outer g2 g2' ?_⟩
      have := g3.cons (q := { p.cur with stop := s1.tokenEnd, startTagEnd := some s1.tokenEnd }) gk s1'.tokenEnd
      rw [renamed_eq] at this
      simp only [g4, renamed_eq, t3] at this ⊢
      exact this
    · refine PRes.mono (pop_ren (n := { p.cur with stop := s1.tokenEnd }) g3 rfl ?_) (fun q q' hq => .outer g2 g2' hq)
      simp only [g4, renamed_eq, t3]
  case StartTagSelfClose =>
    obtain ⟨g1, g2⟩ := hf.g3 (.inr htt)
    have g2' : s1.state.inEnd = false := by
      cases h0 : s1.state.inEnd with
      | false => rfl
      | true =>
        rcases hf.g5 h0 with h | h
        · rw [inEnd_inStart h] at g1; cases g1
        · rw [htt] at h; cases h
    obtain ⟨g3, gk, g5, e', g4⟩ := h.inn g1
    have e1 : p.parents.isEmpty = false := by
      cases hp : p.parents with
      | nil => exact absurd hp g3.ne.1
      | cons => rfl
    have e2 : p'.parents.isEmpty = false := by
      cases hp : p'.parents with
      | nil => exact absurd hp g3.ne.2
      | cons => rfl
    simp only [e1, e2, Bool.false_eq_true, if_false]
    refine PRes.mono (pop_ren (n := { p.cur with stop := s1.tokenEnd, startTagEnd := some s1.tokenEnd, closed := true })
      g3 rfl ?_) (fun q q' hq => .outer g2 g2' hq)
    simp only [g4, renamed_eq, t3]
    rfl
  case EndTagOpen =>
    obtain ⟨g1, g2⟩ := hf.g6 htt
    refine ⟨_, rfl, ?_⟩
    refine ⟨fun h0 => (by rw [inEnd_inStart g2] at h0; cases h0), fun _ => h.out g1, fun h0 => ?_,
      fun _ => ⟨s1.tokenOffset, h.out g1, rfl, ?_, rfl, none, rfl, fun _ h => by cases h⟩⟩
    · rcases h0 with h0 | h0 <;> (rw [h0] at g2; cases g2)
    · simp only [t2]
  case EndTag =>
    have g1 := hf.g7 (.inl htt)
    refine PRes.bindEq (hx (by rw [htt]; rfl)) fun t htx => ⟨_, rfl, ?_⟩
    have hid := idle (by rw [htt]; decide) (by rw [htt]; decide) (by rw [htt]; decide) (by rw [htt]; decide) (by rw [htt]; decide)
    refine ⟨hid.inn, hid.out, hid.pend, fun h0 => ?_⟩
    obtain ⟨e, k3⟩ := hid.ends h0
    refine ⟨e, k3.stack, k3.start, k3.start', ?_, some t, ?_, fun t' ht' => ?_⟩
    · simp only [hu, hc]
    · simp only [Option.map_some, foldName]
    · cases ht'
      exact hF (.inr htt) _ htx
  case EndTagClose =>
    have g1 := hf.g7 (.inr htt)
    have g0 := inEnd_inStart g1
    obtain ⟨e, k3⟩ := h.ends g1
    have hst := h.out g0
    have hid := idle (by rw [htt]; decide) (by rw [htt]; decide) (by rw [htt]; decide) (by rw [htt]; decide) (by rw [htt]; decide)
    have hl : p'.parents.length = p.parents.length := by simpa using hst.length
    simp only [hu, hc, k3.name.1, matchDepth_ren k3.name.2 (hM htt) hst]
    refine PRes.ite Iff.rfl (fun hd => ?_) (fun _ => ⟨_, rfl, hid⟩)
    rw [hl]
    refine PRes.bind (popUnclosed_ren k3 (by omega)) fun q q' hq => ?_
    rw [t3]
    refine PRes.mono hq.pop (fun r r' hr => ?_)
    have g2 : s1.state.inStart = false := by
      cases h0 : s1.state.inStart with
      | false => rfl
      | true =>
        rcases hf.g1 h0 with h | h
        · rw [g0] at h; cases h
        · rw [htt] at h; cases h
    refine ⟨fun h0 => (by rw [g2] at h0; cases h0), fun _ => hr.stack, fun h0 => ?_, fun _ => ⟨e, hr⟩⟩
    rcases h0 with h0 | h0 <;> (rw [h0] at g2; cases g2)
  all_goals exact ⟨_, rfl, idle (by rw [htt]; decide) (by rw [htt]; decide) (by rw [htt]; decide) (by rw [htt]; decide) (by rw [htt]; decide)⟩

variable {void : List Str}

/-! ### Elements that get an end -/

theorem parseStep_closed {s1 : Sc} {p q : PState} {k : Node} (hq : parseStep c void p s1 = .ok q)
    (hk : Finished (q.cur :: q.parents) k) (hc : k.closed = true) :
    Finished (p.cur :: p.parents) k ∨ (k.stop = s1.tokenEnd ∧
      ((k.start = p.cur.start ∧ (s1.tokenType = .StartTagClose ∨ s1.tokenType = .StartTagSelfClose)) ∨
       (s1.tokenType = .EndTagClose ∧ Hit k.start c.uni c.caseSensitive p.endTagName p.cur p.parents ∧
        k.endTagStart = p.endTagStart))) := by
  unfold parseStep at hq
  cases htt : s1.tokenType <;> simp only [htt] at hq
  case StartTagOpen =>
    cases hq
    exact .inl ((Finished.push (by rfl) k).1 hk)
  case StartTag =>
    obtain ⟨t, _, hq⟩ := bind_ok hq
    cases hq
    exact .inl ((Finished.set (by rfl) k).1 hk)
  case AttributeName =>
    obtain ⟨t, _, hq⟩ := bind_ok hq
    cases hq
    exact .inl ((Finished.set (by rfl) k).1 hk)
  case DelimiterAssign =>
    split at hq
    · obtain ⟨t, _, hq⟩ := bind_ok hq
      cases hq
      exact .inl ((Finished.set (by rfl) k).1 hk)
    · cases hq; exact .inl hk
  case AttributeValue =>
    obtain ⟨t, _, hq⟩ := bind_ok hq
    split at hq
    · obtain ⟨t, _, hq⟩ := bind_ok hq
      cases hq
      exact .inl ((Finished.set (by rfl) k).1 hk)
    · cases hq; exact .inl hk
  case StartTagClose =>
    split at hq
    · cases hq; exact .inl hk
    · split at hq
      · split at hq
        · rcases (Finished.pop hq k).1 hk with h | h
          · exact .inl ((Finished.set (by rfl) k).1 h)
          · exact .inr ⟨by rw [h], .inl ⟨by rw [h], .inl rfl⟩⟩
        · cases hq; exact .inl ((Finished.set (by rfl) k).1 hk)
      · rcases (Finished.pop hq k).1 hk with h | h
        · exact .inl ((Finished.set (by rfl) k).1 h)
        · exact .inr ⟨by rw [h], .inl ⟨by rw [h], .inl rfl⟩⟩
  case StartTagSelfClose =>
    split at hq
    · cases hq; exact .inl hk
    · rcases (Finished.pop hq k).1 hk with h | h
      · exact .inl ((Finished.set (by rfl) k).1 h)
      · exact .inr ⟨by rw [h], .inl ⟨by rw [h], .inr rfl⟩⟩
  case EndTag =>
    obtain ⟨t, _, hq⟩ := bind_ok hq
    cases hq
    exact .inl hk
  case EndTagClose =>
    split at hq
    · rename_i hd
      obtain ⟨p1, h1, hq⟩ := bind_ok hq
      rcases (Finished.pop hq k).1 hk with h | h
      · exact .inl ((popUnclosed_finished h1 k hc).1 ((Finished.set (by rfl) k).1 h))
      · have h2 := popUnclosed_hit (P := k.start) rfl hd h1
        refine .inr ⟨by rw [h], .inr ⟨rfl, h2.1.1 (by rw [h]), ?_⟩⟩
        rw [← h2.2, h]
    · cases hq; exact .inl hk
  all_goals (cases hq; exact .inl hk)

/-- No element that starts at `P` has been closed. -/
def NoneYet (P : Nat) (p : PState) : Prop := ∀ k, Finished (p.cur :: p.parents) k → k.start = P → k.closed = true → False

theorem NoneYet.step {s1 : Sc} {p q : PState} (h : NoneYet P p) (hq : parseStep c void p s1 = .ok q)
    (h1 : s1.tokenType = .StartTagClose ∨ s1.tokenType = .StartTagSelfClose → P ≠ p.cur.start)
    (h2 : s1.tokenType = .EndTagClose → ¬ Hit P c.uni c.caseSensitive p.endTagName p.cur p.parents) : NoneYet P q := by
  intro k hk hs hc
  rcases parseStep_closed hq hk hc with h3 | ⟨_, ⟨h3, h4⟩ | ⟨h3, h4, _⟩⟩
  · exact h k h3 hs hc
  · exact h1 h4 (by omega)
  · exact h2 h3 (hs ▸ h4)

/-! ### Parallel runs -/

/-- The next token of both texts. -/
theorem pair_step {pre pre' : Str} {c' : Cfg} {len fA : Nat} {s s1 sA sB : Sc} {p p' r r' : PState}
    (hoA : parseLoop (c.behind pre) void (fA + 1) p sA = .ok r) (hoB : Out (c'.behind pre') void p' sB r')
    (hA : Eqv (c.behind pre) sA (s.shift pre.length)) (hB : Eqv (c'.behind pre') sB (s.shift pre'.length))
    (hsA : scan c s = .ok s1) (hsB : scan c' s = .ok s1) (hne : s1.tokenType ≠ .EOS)
    (hu : c'.uni = c.uni) (hc : c'.caseSensitive = c.caseSensitive)
    (hx : isEndTT s1.tokenType = false → tokenText c' s1 = tokenText c s1)
    (hk : μ (s1.tokenOffset + pre.length) = s1.tokenOffset + pre'.length)
    (hk2 : μ (s1.pos + pre.length) = s1.pos + pre'.length) (hP : P < pre.length)
    (hF : s1.tokenType = .StartTag ∨ s1.tokenType = .EndTag → ∀ t, tokenText c s1 = .ok t → F t)
    (hM : G ∨ (∀ t, F t → ¬ SameName c.uni c.caseSensitive (some N) (some t)) ∧
      ∀ k, InForest (finishAll len r.cur r.parents).children k → k.start = P → k.closed = true → s1.pos + pre.length < k.stop)
    (h : PRn (c.behind pre) P N μ G F sA.state p p') (hJ : G ∨ NoneYet P p) :
    ∃ q q' sA' sB', parseLoop (c.behind pre) void fA q sA' = .ok r ∧ Out (c'.behind pre') void q' sB' r' ∧
      Eqv (c.behind pre) sA' (s1.shift pre.length) ∧ Eqv (c'.behind pre') sB' (s1.shift pre'.length) ∧
      PRn (c.behind pre) P N μ G F sA'.state q q' ∧ (G ∨ NoneYet P q) := by
  have hrA := internalScan_rel hA
  have hrB := internalScan_rel hB
  have hscA : scan (c.behind pre) (s.shift pre.length) = (scan c s).map (Sc.shift pre.length) := scan_shift
  have hscB : scan (c'.behind pre') (s.shift pre'.length) = (scan c' s).map (Sc.shift pre'.length) := scan_shift
  rw [← scan_eq_internalScan, ← scan_eq_internalScan, hscA, hsA] at hrA
  rw [← scan_eq_internalScan, ← scan_eq_internalScan, hscB, hsB] at hrB
  obtain ⟨fB, hoB⟩ := hoB
  cases fB with
  | zero => cases hoB
  | succ fB =>
  unfold parseLoop at hoA hoB
  obtain ⟨s2, h2, hoA⟩ := bind_ok hoA
  obtain ⟨s3, h3, hoB⟩ := bind_ok hoB
  rw [h2] at hrA
  rw [h3] at hrB
  cases hrA with
  | ok htA hhA =>
  cases hrB with
  | ok htB hhB =>
  have a1 : s2.tok = s1.tok.shift pre.length := htA
  have a2 : s3.tok = s1.tok.shift pre'.length := htB
  have b1 : s2.tokenType = s1.tokenType := congrArg Tok.type a1
  have b2 : s3.tokenType = s1.tokenType := congrArg Tok.type a2
  have b3 : s2.tokenOffset = s1.tokenOffset + pre.length := congrArg Tok.offset a1
  have b4 : s3.tokenOffset = s1.tokenOffset + pre'.length := congrArg Tok.offset a2
  have b5 : s2.pos = s1.pos + pre.length := congrArg Tok.stop a1
  have b6 : s3.pos = s1.pos + pre'.length := congrArg Tok.stop a2
  have htt : s3.tokenType = s2.tokenType := b2.trans b1.symm
  rw [if_neg (by rw [b1]; exact hne)] at hoA
  rw [if_neg (by rw [b2]; exact hne)] at hoB
  obtain ⟨q, hq, hoA⟩ := bind_ok hoA
  obtain ⟨q', hq', hoB⟩ := bind_ok hoB
  have hst := scan_step h2
  have hne2 : s2.tokenType ≠ .EOS := by rw [b1]; exact hne
  have hxA : tokenText (c.behind pre) s2 = tokenText c s1 := tokenText_behind (s := s1) htA
  have hxB : tokenText (c'.behind pre') s3 = tokenText c' s1 := tokenText_behind (s := s1) htB
  have hH : s2.tokenType = .EndTagClose → G ∨ (∀ t, F t → ¬ SameName c.uni c.caseSensitive (some N) (some t)) ∧
      ¬ Hit P c.uni c.caseSensitive p.endTagName p.cur p.parents := fun ht => by
    rcases hM with hM | ⟨hM, hM2⟩
    · exact .inl hM
    · refine .inr ⟨hM, fun hh => ?_⟩
      obtain ⟨x, hx, k, hk, e1, e2, e3, e4⟩ := Hit.closes (c := c.behind pre) hh ht hq
      have := hM2 k (Res.keeps (m := k) ⟨_, hoA⟩ ⟨x, hx, k, hk, rfl⟩ len) e1 e2
      simp only [Sc.tokenEnd] at e3
      omega
  have hJ' : G ∨ NoneYet P q := by
    by_cases hg : G
    · exact .inl hg
    · refine .inr ((hJ.resolve_left hg).step hq (fun ht => ?_) fun ht => ((hH ht).resolve_left hg).2)
      have := (h.inn ((hst.locFacts hne2).g3 ht).1).2.2.1
      omega
  have hstep := parseStep_ren (c := c.behind pre) (c' := c'.behind pre') (void := void) h (hst.locFacts hne2)
    (hst.infoFacts hne2) (s1' := s3) htt (by rw [b4, b3, hk])
    (by simp only [Sc.tokenEnd]; rw [b6, b5, hk2])
    (by simp only [Sc.tokenLength]; omega) hu hc (by rw [hxA, hxB, b1]; exact hx) (by omega)
    (by rw [hxA, b1]; exact hF) hH
  rw [hq, hq'] at hstep
  obtain ⟨_, e, hR⟩ := hstep
  cases e
  exact ⟨q, q', s2, s3, hoA, ⟨_, hoB⟩, ⟨congrArg Tok.state htA, congrArg Tok.stop htA, hhA⟩,
    ⟨congrArg Tok.state htB, congrArg Tok.stop htB, hhB⟩, hR, hJ'⟩

/-- Up to the end of a common text that ends with a `>`. -/
theorem Res.pairTo {x pre pre' : Str} {c' : Cfg} {len : Nat} (Ag : Agree x c c') {s s2 : Sc} {ts i : List Tok} {tk : Tok}
    (hr : Run c s ts s2) (hs : s.pos ≤ x.length) (hts : ts = i ++ [tk]) (h1 : tk.stop = x.length + 1)
    (h2 : isEndTT tk.type = true) (h3 : tk.offset < tk.stop) {sA sB : Sc} {p p' r r' : PState}
    (hoA : Out (c.behind pre) void p sA r) (hoB : Out (c'.behind pre') void p' sB r')
    (hA : Eqv (c.behind pre) sA (s.shift pre.length)) (hB : Eqv (c'.behind pre') sB (s.shift pre'.length))
    (hk : ∀ o, o ≤ x.length + 1 → μ (o + pre.length) = o + pre'.length) (hP : P < pre.length)
    (hF : ∀ t ∈ ts, t.type = .StartTag ∨ t.type = .EndTag → F (bytesIn c.src t.offset t.stop))
    (hM : G ∨ (∀ t, F t → ¬ SameName c.uni c.caseSensitive (some N) (some t)) ∧
      ∀ k, InForest (finishAll len r.cur r.parents).children k → k.start = P → k.closed = true →
        x.length + 1 + pre.length < k.stop)
    (h : PRn (c.behind pre) P N μ G F sA.state p p') (hJ : G ∨ NoneYet P p) :
    ∃ q q' sA' sB', Out (c.behind pre) void q sA' r ∧ Out (c'.behind pre') void q' sB' r' ∧
      Eqv (c.behind pre) sA' (s2.shift pre.length) ∧ Eqv (c'.behind pre') sB' (s2.shift pre'.length) ∧
      PRn (c.behind pre) P N μ G F sA'.state q q' ∧ (G ∨ NoneYet P q) := by
  induction hr generalizing i p p' sA sB with
  | nil s => simp at hts
  | @cons s s1 s2 ts hsc hne hr ih =>
    have hst := scan_step hsc
    have hE : Ends x s1 ∧ (isEndTT s1.tokenType = false → s1.pos ≤ x.length) ∧ s1.pos ≤ x.length + 1 := by
      cases i with
      | nil =>
        obtain ⟨e1, e2⟩ := List.cons.inj hts
        have k1 : s1.pos = x.length + 1 := by rw [← h1, ← e1]; rfl
        have k2 : isEndTT s1.tokenType = true := by rw [← h2, ← e1]; rfl
        exact ⟨.inr ⟨k1, k2⟩, fun h0 => (by rw [k2] at h0; cases h0), by omega⟩
      | cons t0 i =>
        obtain ⟨e1, e2⟩ := List.cons.inj hts
        have hm : tk ∈ ts := by rw [e2]; simp
        have := (hr.ge hm).1
        have hs1 : s1.pos ≤ x.length := by omega
        exact ⟨.inl hs1, fun _ => hs1, by omega⟩
    have hsc' := scan_keeps Ag hs s1 hsc hE.1
    have hoff := hst.offset_eq
    have hle := hst.pos_le
    obtain ⟨fA, hoA⟩ := hoA
    cases fA with
    | zero => cases hoA
    | succ fA =>
    obtain ⟨q, q', sA', sB', k1, k2, k3, k4, k5, k6⟩ := pair_step (len := len) hoA hoB hA hB hsc hsc' hne Ag.uni Ag.case
      (fun h0 => Ag.slice (hE.2.1 h0)) (hk _ (by omega)) (hk _ hE.2.2) hP
      (fun ht t h0 => by
        have := hF s1.tok (by simp) ht
        rw [(sliceStr_ok h0).2.2.2.2]
        exact this)
      (hM.imp id fun ⟨a, b⟩ => ⟨a, fun k b1 b2 b3 => by have := b k b1 b2 b3; omega⟩) h hJ
    cases i with
    | nil =>
      obtain ⟨e1, e2⟩ := List.cons.inj hts
      subst e2
      cases hr
      exact ⟨q, q', sA', sB', ⟨_, k1⟩, k2, k3, k4, k5, k6⟩
    | cons t0 i =>
      obtain ⟨e1, e2⟩ := List.cons.inj hts
      have hm : tk ∈ ts := by rw [e2]; simp
      have := (hr.ge hm).1
      exact ih (by omega) e2 ⟨_, k1⟩ k2 k3 k4 (fun t ht => hF t (by simp [ht])) k5 k6

/-- Up to the end of both texts. -/
theorem pair_end {pre pre' : Str} {len : Nat} {f : Nat} {s sA sB : Sc} {p p' r r' : PState}
    (hoA : parseLoop (c.behind pre) void f p sA = .ok r) (hoB : Out (c.behind pre') void p' sB r')
    (hA : Eqv (c.behind pre) sA (s.shift pre.length)) (hB : Eqv (c.behind pre') sB (s.shift pre'.length))
    (hs : s.pos ≤ c.src.length)
    (hk : ∀ o, o ≤ c.src.length → μ (o + pre.length) = o + pre'.length) (hP : P < pre.length)
    (hF : ∀ ts s2, Run c s ts s2 → ∀ t ∈ ts, t.type = .StartTag ∨ t.type = .EndTag → F (bytesIn c.src t.offset t.stop))
    (hM : G ∨ (∀ t, F t → ¬ SameName c.uni c.caseSensitive (some N) (some t)) ∧
      ∀ k, InForest (finishAll len r.cur r.parents).children k → k.start = P → k.closed = true → False)
    (h : PRn (c.behind pre) P N μ G F sA.state p p') (hJ : G ∨ NoneYet P p) :
    ∃ st, PRn (c.behind pre) P N μ G F st r r' := by
  induction f generalizing s sA sB p p' with
  | zero => cases hoA
  | succ f ih =>
    have hoA0 := hoA
    unfold parseLoop at hoA
    obtain ⟨s2, h2, hoA⟩ := bind_ok hoA
    have hrA := internalScan_rel hA
    have hscA : scan (c.behind pre) (s.shift pre.length) = (scan c s).map (Sc.shift pre.length) := scan_shift
    rw [← scan_eq_internalScan, ← scan_eq_internalScan, hscA, h2] at hrA
    cases h1 : scan c s with
    | error e => rw [h1] at hrA; cases hrA
    | ok s1 =>
      have hst := scan_step h1
      have e1 : sA.pos = s.pos + pre.length := hA.2.1
      have e2 : sB.pos = s.pos + pre'.length := hB.2.1
      by_cases hne : s1.tokenType = .EOS
      · have hend := hst.eos_iff.1 hne
        have g1 := Res.atEnd ⟨_, hoA0⟩ (c := c.behind pre) (by simp [Cfg.behind]; omega)
        have g2 := Res.atEnd hoB (c := c.behind pre') (by simp [Cfg.behind]; omega)
        subst g1 g2
        exact ⟨_, h⟩
      · have hoff := hst.offset_eq
        have hpos := hst.pos_le hs
        obtain ⟨q, q', sA', sB', k1, k2, k3, k4, k5, k6⟩ := pair_step (len := len) hoA0 hoB hA hB h1 h1 hne rfl rfl
          (fun _ => rfl) (hk _ (by omega)) (hk _ (by omega)) hP
          (fun ht t h0 => by
            have := hF [s1.tok] s1 (.cons h1 hne (.nil _)) s1.tok (by simp) ht
            rw [(sliceStr_ok h0).2.2.2.2]
            exact this)
          (hM.imp id fun ⟨a, b⟩ => ⟨a, fun k b1 b2 b3 => (b k b1 b2 b3).elim⟩) h hJ
        exact ih k1 k2 k3 k4 (by omega) (fun ts s2 hr t ht => hF _ s2 (.cons h1 hne hr) t (by simp [ht])) k5 k6

theorem finish_ren {len : Nat} {q q' : Node} {x x' : List Node} (h : RN P N μ G F (q :: x) (q' :: x')) :
    (finishAll (μ len) q' x').children = (finishAll len q x).children.map (renamed P N μ) := by
  induction x generalizing q q' x' with
  | nil =>
    obtain ⟨r', e, h⟩ := h
    cases e
    exact h
  | cons q2 qs ih =>
    have hlen := h.length
    cases x' with
    | nil => simp at hlen
    | cons q2' qs' =>
      unfold finishAll
      exact ih h.leave

theorem PRn.finish {st : SS} {len : Nat} {p p' : PState} (h : PRn c P N μ G F st p p') :
    (finishAll (μ len) p'.cur p'.parents).children =
      (finishAll len p.cur p.parents).children.map (renamed P N μ) := by
  cases hs : st.inStart with
  | false => exact finish_ren (h.out hs)
  | true =>
    obtain ⟨h1, hk, h0, e', h2⟩ := h.inn hs
    have := h1.cons (q := p.cur) hk e'
    rw [← h2] at this
    exact finish_ren this

end Html
