import Verif.Spec.Insert
import Verif.Proof.ParseConcat
import Verif.Proof.Print

/-! # The nodes of a text into which complete elements are inserted -/

namespace Html
open Spec

variable {P k : Nat} {ns : List Node}

theorem insertNode_eq (P k : Nat) (ns : List Node) (n : Node) : insertNode P k ns n =
    { n with stop := n.stop + k, children := insertAll P k ns n.children, endTagStart := n.endTagStart.map (· + k) } := by
  cases n; rw [insertNode]

/-- In front of the insertion. -/
def Before (P : Nat) (n : Node) : Prop := n.start < P ∧ ¬ OpenAt P n

theorem insertAll_snoc {l : List Node} {n : Node} (h : P ≤ n.start) :
    insertAll P k ns (l ++ [n]) = insertAll P k ns l ++ [n.shift k] := by
  induction l with
  | nil =>
    have h1 : ¬ OpenAt P n := fun h0 => by have := h0.1; omega
    simp only [List.nil_append, insertAll]
    rw [if_neg h1, if_neg (by omega)]
    rfl
  | cons m l ih =>
    simp only [List.cons_append, insertAll]
    by_cases h1 : OpenAt P m
    · rw [if_pos h1, if_pos h1]; simp
    · rw [if_neg h1, if_neg h1]
      by_cases h2 : m.start < P
      · rw [if_pos h2, if_pos h2, ih]; rfl
      · rw [if_neg h2, if_neg h2]; simp

theorem insertAll_before {l : List Node} (h : ∀ m ∈ l, Before P m) : insertAll P k ns l = l ++ ns := by
  induction l with
  | nil => simp [insertAll]
  | cons m l ih =>
    have hm := h m (by simp)
    rw [insertAll, if_neg hm.2, if_pos hm.1, ih (fun x hx => h x (by simp [hx]))]
    rfl

theorem insertAll_open {l : List Node} {n : Node} (h : ∀ m ∈ l, Before P m) (hn : OpenAt P n) :
    insertAll P k ns (l ++ [n]) = l ++ [insertNode P k ns n] := by
  induction l with
  | nil => simp only [List.nil_append, insertAll]; rw [if_pos hn]; rfl
  | cons m l ih =>
    have hm := h m (by simp)
    rw [List.cons_append, insertAll, if_neg hm.2, if_pos hm.1, ih (fun x hx => h x (by simp [hx]))]
    rfl

/-! ### Related stacks -/

/-- An element that was open at the insertion. -/
structure OldNode (P : Nat) (q : Node) : Prop where
  start : q.start < P
  ste : q.startTagEnd ≠ none
  ets : q.endTagStart = none

/-- The stack around the innermost element that was open at the insertion. -/
def OldRel (P : Nat) : List Node → List Node → Prop
  | [], _ => False
  | [r], l' => ∃ r', l' = [r'] ∧ r'.children = r.children ∧ ∀ n ∈ r.children, Before P n
  | q :: q2 :: qs, l' => ∃ qs', l' = q :: qs' ∧ OldNode P q ∧ (∀ n ∈ q.children, Before P n) ∧ OldRel P (q2 :: qs) qs'

/-- The stacks behind the insertion. -/
def IRel (P k : Nat) (ns : List Node) : List Node → List Node → Prop
  | [], _ => False
  | [r], l' => ∃ r', l' = [r'] ∧ r'.children = insertAll P k ns r.children
  | q :: q2 :: qs, l' => ∃ q' qs', l' = q' :: qs' ∧
    ((P ≤ q.start ∧ q' = q.shift k ∧ IRel P k ns (q2 :: qs) qs') ∨
     (OldNode P q ∧ q' = { q with children := insertAll P k ns q.children } ∧ OldRel P (q2 :: qs) qs'))

theorem OldRel.length {l l' : List Node} (h : OldRel P l l') : l'.length = l.length := by
  induction l generalizing l' with
  | nil => exact h.elim
  | cons q qs ih =>
    cases qs with
    | nil => obtain ⟨r', e, _⟩ := h; rw [e]; rfl
    | cons q2 qs => obtain ⟨qs', e, _, _, h⟩ := h; rw [e, List.length_cons, ih h]; rfl

theorem IRel.length {l l' : List Node} (h : IRel P k ns l l') : l'.length = l.length := by
  induction l generalizing l' with
  | nil => exact h.elim
  | cons q qs ih =>
    cases qs with
    | nil => obtain ⟨r', e, _⟩ := h; rw [e]; rfl
    | cons q2 qs =>
      obtain ⟨q', qs', e, ⟨_, _, h⟩ | ⟨_, _, h⟩⟩ := h
      · rw [e, List.length_cons, ih h]; rfl
      · rw [e, List.length_cons, h.length]; rfl

theorem IRel.ne {l l' : List Node} (h : IRel P k ns l l') : l ≠ [] ∧ l' ≠ [] := by
  cases l with
  | nil => exact h.elim
  | cons q qs =>
    refine ⟨by simp, fun e => ?_⟩
    have := h.length
    rw [e] at this
    simp at this

theorem IRel.cons {q : Node} {l l' : List Node} (h : IRel P k ns l l') (hq : P ≤ q.start) :
    IRel P k ns (q :: l) (q.shift k :: l') := by
  cases l with
  | nil => exact h.elim
  | cons q2 qs => exact ⟨_, l', rfl, .inl ⟨hq, rfl, h⟩⟩

theorem IRel.uncons {q q' : Node} {l l' : List Node} (h : IRel P k ns (q :: l) (q' :: l')) (hl : l ≠ []) :
    (P ≤ q.start ∧ q' = q.shift k ∧ IRel P k ns l l') ∨
     (OldNode P q ∧ q' = { q with children := insertAll P k ns q.children } ∧ OldRel P l l') := by
  cases l with
  | nil => exact absurd rfl hl
  | cons q2 qs =>
    obtain ⟨_, qs', e, h⟩ := h
    cases e
    exact h

/-- A new child. -/
theorem IRel.add {q q' n : Node} {l l' : List Node} (h : IRel P k ns (q :: l) (q' :: l')) (hn : P ≤ n.start) :
    IRel P k ns (q.addChild n :: l) (q'.addChild (n.shift k) :: l') := by
  cases l with
  | nil =>
    obtain ⟨r', e, h⟩ := h
    cases e
    refine ⟨_, rfl, ?_⟩
    simp only [Node.addChild, h, insertAll_snoc hn]
  | cons q2 qs =>
    refine ⟨_, _, rfl, ?_⟩
    rcases h.uncons (by simp) with ⟨h1, h2, h3⟩ | ⟨h1, h2, h3⟩
    · refine .inl ⟨h1, ?_, h3⟩
      rw [h2]
      simp only [Node.addChild, shift_eq, List.map_append, List.map_cons, List.map_nil]
    · refine .inr ⟨⟨h1.1, h1.2, h1.3⟩, ?_, h3⟩
      rw [h2]
      simp only [Node.addChild, insertAll_snoc hn]

/-- A child that was open at the insertion. -/
theorem OldRel.add {q q' n : Node} {l l' : List Node} (h : OldRel P (q :: l) (q' :: l')) (hn : OpenAt P n) :
    IRel P k ns (q.addChild n :: l) (q'.addChild (insertNode P k ns n) :: l') := by
  cases l with
  | nil =>
    obtain ⟨r', e, h1, h2⟩ := h
    cases e
    refine ⟨_, rfl, ?_⟩
    simp only [Node.addChild, h1, insertAll_open h2 hn]
  | cons q2 qs =>
    obtain ⟨qs', e, h1, h2, h3⟩ := h
    cases e
    refine ⟨_, _, rfl, .inr ⟨⟨h1.1, h1.2, h1.3⟩, ?_, h3⟩⟩
    simp only [Node.addChild, insertAll_open h2 hn]

/-- The innermost element ends. -/
theorem IRel.close {q q' q2 q2' : Node} {l l' : List Node} (h : IRel P k ns (q :: q2 :: l) (q' :: q2' :: l'))
    {e : Nat} {b : Bool} {o : Option Nat} (he : P ≤ e) (hb : b = true → P < e) :
    IRel P k ns (q2.addChild { q with stop := e, closed := b, endTagStart := o } :: l)
      (q2'.addChild { q' with stop := e + k, closed := b, endTagStart := o.map (· + k) } :: l') := by
  rcases h.uncons (by simp) with ⟨h1, h2, h3⟩ | ⟨h1, h2, h3⟩
  · have := h3.add (n := { q with stop := e, closed := b, endTagStart := o }) h1
    rw [shift_eq] at this
    rw [h2, shift_eq]
    exact this
  · have := h3.add (k := k) (ns := ns) (n := { q with stop := e, closed := b, endTagStart := o }) (by
      refine ⟨h1.start, ?_⟩
      cases b with
      | true => exact .inl (hb rfl)
      | false =>
        rcases Nat.lt_or_eq_of_le he with h | h
        · exact .inl h
        · exact .inr ⟨h, rfl, h1.ste⟩)
    rw [insertNode_eq] at this
    rw [h2]
    exact this

/-- The innermost element is left open. -/
theorem IRel.leave {q q' q2 q2' : Node} {l l' : List Node} (h : IRel P k ns (q :: q2 :: l) (q' :: q2' :: l'))
    {e : Nat} (he : P ≤ e) :
    IRel P k ns (q2.addChild { q with stop := e, closed := false } :: l)
      (q2'.addChild { q' with stop := e + k, closed := false } :: l') := by
  have h0 := h.close (o := q.endTagStart) (b := false) he (fun h => by cases h)
  have : q'.endTagStart = q.endTagStart.map (· + k) := by
    rcases h.uncons (by simp) with ⟨_, h2, _⟩ | ⟨h1, h2, _⟩
    · rw [h2, shift_eq]
    · rw [h2]; simp [h1.ets]
  rw [← this] at h0
  exact h0

/-! ### Related states -/

/-- States of the two parsers, outside start tags, in an end tag that starts at `e`. -/
structure EIns (P k : Nat) (ns : List Node) (e : Nat) (p p' : PState) : Prop where
  stack : IRel P k ns (p.cur :: p.parents) (p'.cur :: p'.parents)
  start : p.endTagStart = some e
  start' : p'.endTagStart = some (e + k)
  name : p'.endTagName = p.endTagName

/-- States of the two parsers when the scanner is in state `st` at `pos`. -/
structure PIns (P k : Nat) (ns : List Node) (st : SS) (pos : Nat) (p p' : PState) : Prop where
  inn : st.inStart = true → IRel P k ns p.parents p'.parents ∧ P ≤ p.cur.start ∧ ∃ e', p'.cur = { p.cur.shift k with stop := e' }
  out : st.inStart = false → IRel P k ns (p.cur :: p.parents) (p'.cur :: p'.parents)
  pend : st = .AfterAttributeName ∨ st = .BeforeAttributeValue → p'.pending = p.pending
  ends : st.inEnd = true → ∃ e, P ≤ e ∧ e < pos ∧ EIns P k ns e p p'

theorem EIns.pop {e x : Nat} {p p' : PState} (h : EIns P k ns e p p') (hx : P < x) :
    PRes (fun q q' => EIns P k ns e q q')
      ({ p with cur := { p.cur with closed := true, endTagStart := p.endTagStart, stop := x } } : PState).pop
      ({ p' with cur := { p'.cur with closed := true, endTagStart := p'.endTagStart, stop := x + k } } : PState).pop := by
  obtain ⟨cur, ps, es, en, pe⟩ := p
  obtain ⟨cur', ps', es', en', pe'⟩ := p'
  obtain ⟨h1, h2, h3, h4⟩ := h
  simp only at h1 h2 h3 h4
  subst h2 h3
  have hl := h1.length
  cases ps with
  | nil =>
    cases ps' with
    | nil => rfl
    | cons => simp at hl
  | cons q qs =>
    cases ps' with
    | nil => simp at hl
    | cons q' qs' =>
      exact ⟨_, rfl, h1.close (o := some e) (b := true) (by omega) (fun _ => hx), rfl, rfl, h4⟩

theorem popUnclosed_ins {n e : Nat} {p p' : PState} (h : EIns P k ns e p p') (he : P ≤ e) (hn : n ≤ p.parents.length) :
    PRes (fun q q' => EIns P k ns e q q' ∧ q.parents.length = p.parents.length - n) (popUnclosed n p) (popUnclosed n p') := by
  induction n generalizing p p' with
  | zero => exact ⟨p', rfl, h, rfl⟩
  | succ n ih =>
    obtain ⟨cur, ps, es, en, pe⟩ := p
    obtain ⟨cur', ps', es', en', pe'⟩ := p'
    obtain ⟨h1, h2, h3, h4⟩ := h
    simp only at h1 h2 h3 h4 hn
    subst h2 h3
    have hl := h1.length
    cases ps with
    | nil => simp at hn
    | cons q qs =>
      cases ps' with
      | nil => simp at hl
      | cons q' qs' =>
        have h0 : EIns P k ns e ⟨q.addChild { cur with stop := e, closed := false }, qs, some e, en, pe⟩
            ⟨q'.addChild { cur' with stop := e + k, closed := false }, qs', some (e + k), en', pe'⟩ :=
          ⟨h1.leave he, rfl, rfl, h4⟩
        simp only [List.length_cons] at hn
        exact PRes.mono (ih h0 (by simp only; omega)) (fun a a' ha => ⟨ha.1, by
          rw [ha.2]; simp only [List.length_cons]; omega⟩)

theorem matchDepth_old {u : Uni} {cs : Bool} {nm : Option Str} {q q' : Node} {l l' : List Node}
    (h : OldRel P (q :: l) (q' :: l')) : matchDepth u cs nm q' l' = matchDepth u cs nm q l := by
  induction l generalizing q q' l' with
  | nil =>
    obtain ⟨r', e, _⟩ := h
    cases e
    rfl
  | cons q2 qs ih =>
    obtain ⟨qs', e, _, _, h⟩ := h
    cases e
    have hl := h.length
    cases l' with
    | nil => simp at hl
    | cons q2' qs' =>
      unfold matchDepth
      rw [ih h, hl]

theorem matchDepth_ins {u : Uni} {cs : Bool} {nm : Option Str} {q q' : Node} {l l' : List Node}
    (h : IRel P k ns (q :: l) (q' :: l')) : matchDepth u cs nm q' l' = matchDepth u cs nm q l := by
  induction l generalizing q q' l' with
  | nil =>
    obtain ⟨r', e, _⟩ := h
    cases e
    rfl
  | cons q2 qs ih =>
    have hl := h.length
    cases l' with
    | nil => simp at hl
    | cons q2' qs' =>
      have hl' : (q2' :: qs').length = (q2 :: qs).length := by simpa using hl
      unfold matchDepth
      rcases h.uncons (by simp) with ⟨_, e, h⟩ | ⟨_, e, h⟩
      · have : q'.isSameTag u nm cs = q.isSameTag u nm cs := by rw [e, shift_eq]; rfl
        rw [this, ih h, hl']
      · have : q'.isSameTag u nm cs = q.isSameTag u nm cs := by rw [e]; rfl
        rw [this, matchDepth_old h, hl']

/-! ### One step -/

theorem PIns.idle {s s1 : Sc} {p p' : PState} (h : PIns P k ns s.state s.pos p p') (hf : LocFacts s s1) (hi : InfoFacts s s1)
    (hp : s.pos ≤ s1.pos)
    (h1 : s1.tokenType ≠ .StartTagOpen) (h2 : s1.tokenType ≠ .StartTagClose) (h3 : s1.tokenType ≠ .StartTagSelfClose)
    (h4 : s1.tokenType ≠ .EndTagOpen) (h5 : s1.tokenType ≠ .AttributeName) : PIns P k ns s1.state s1.pos p p' where
  inn hs := h.inn ((hf.g1 hs).resolve_right h1)
  out hs := by
    refine h.out ?_
    cases h0 : s.state.inStart with
    | false => rfl
    | true =>
      rcases hf.g2 h0 with h6 | h6 | h6
      · rw [hs] at h6; cases h6
      · exact absurd h6 h2
      · exact absurd h6 h3
  pend hs := by
    rcases hi.f4 hs with h6 | ⟨_, h6⟩
    · exact absurd h6 h5
    · exact h.pend (.inl h6)
  ends hs := by
    obtain ⟨e, k1, k2, k3⟩ := h.ends ((hf.g5 hs).resolve_right h4)
    exact ⟨e, k1, by omega, k3⟩

/-- Inside a start tag only the innermost node changes. -/
theorem PIns.inner {st : SS} {pos : Nat} {q q' : PState} (h : st.inStart = true) (h1 : IRel P k ns q.parents q'.parents)
    (h0 : P ≤ q.cur.start) (h2 : ∃ e', q'.cur = { q.cur.shift k with stop := e' })
    (h3 : st = .AfterAttributeName ∨ st = .BeforeAttributeValue → q'.pending = q.pending) : PIns P k ns st pos q q' :=
  ⟨fun _ => ⟨h1, h0, h2⟩, fun h0 => (by rw [h] at h0; cases h0), h3, fun h0 => (by rw [inStart_inEnd h] at h0; cases h0)⟩

/-- Outside tags. -/
theorem PIns.outer {st : SS} {pos : Nat} {q q' : PState} (h : st.inStart = false) (h0 : st.inEnd = false)
    (h1 : IRel P k ns (q.cur :: q.parents) (q'.cur :: q'.parents)) : PIns P k ns st pos q q' :=
  ⟨fun h2 => (by rw [h] at h2; cases h2), fun _ => h1, fun h2 => (by rcases h2 with rfl | rfl <;> cases h),
    fun h2 => (by rw [h0] at h2; cases h2)⟩

/-- The end of a start tag that also ends the element. -/
theorem pop_start {p p' : PState} {n : Node} (h : IRel P k ns p.parents p'.parents) (hn : P ≤ n.start) (hp : p.cur = n)
    (hp' : p'.cur = n.shift k) :
    PRes (fun q q' => IRel P k ns (q.cur :: q.parents) (q'.cur :: q'.parents)) p.pop p'.pop := by
  obtain ⟨cur, ps, es, en, pe⟩ := p
  obtain ⟨cur', ps', es', en', pe'⟩ := p'
  simp only at h hp hp'
  subst hp hp'
  have hl := h.length
  cases ps with
  | nil => exact h.elim
  | cons q qs =>
    cases ps' with
    | nil => simp at hl
    | cons q' qs' => exact ⟨_, rfl, h.add hn⟩

variable {c : Cfg}

theorem parseStep_ins {c' : Cfg} {void : List Str} {s s1 s1' : Sc} {p p' : PState} (h : PIns P k ns s.state s.pos p p')
    (hf : LocFacts s s1) (hi : InfoFacts s s1) (ht : s1'.tok = s1.tok.shift k) (hu : c'.uni = c.uni)
    (hc : c'.caseSensitive = c.caseSensitive) (hx : tokenText c' s1' = tokenText c s1)
    (hP : P ≤ s.pos) (ho : s1.tokenOffset = s.pos) (hp : s.pos ≤ s1.pos) (heo : s1.tokenType = .EndTagOpen → s.pos < s1.pos) :
    PRes (PIns P k ns s1.state s1.pos) (parseStep c void p s1) (parseStep c' void p' s1') := by
  have t1 : s1'.tokenType = s1.tokenType := congrArg Tok.type ht
  have t2 : s1'.tokenOffset = s1.tokenOffset + k := congrArg Tok.offset ht
  have t3 : s1'.tokenEnd = s1.tokenEnd + k := congrArg Tok.stop ht
  have t4 : s1'.tokenLength = s1.tokenLength := by
    have : s1'.pos = s1.pos + k := t3
    simp only [Sc.tokenLength, t2, this]; omega
  have idle := fun h1 h2 h3 h4 h5 => h.idle hf hi hp h1 h2 h3 h4 h5
  unfold parseStep
  rw [t1]
  cases htt : s1.tokenType
  case StartTagOpen =>
    obtain ⟨g1, g2, g3, g4⟩ := hf.g4 htt
    refine ⟨_, rfl, .inner g2 (h.out g1) ?_ ⟨c'.src.length, ?_⟩ (fun h => by rcases h with h | h <;> contradiction)⟩
    · simp only [Node.new]; omega
    · simp only [Node.new, shift_eq, t2]
      rfl
  case StartTag =>
    have g1 := hi.f1 (.inl htt)
    have g2 : s1.state.inStart = true := by rcases hf.g2 g1 with h | h | h <;> first | exact h | (rw [htt] at h; cases h)
    refine PRes.bindEq hx fun t _ => ⟨_, rfl, ?_⟩
    obtain ⟨g3, g5, e', g4⟩ := h.inn g1
    refine .inner g2 g3 g5 ⟨e', ?_⟩ (fun h0 => ?_)
    · simp only [g4, shift_eq]
    · rcases hi.f4 h0 with h | ⟨h | h, _⟩ <;> (rw [htt] at h; cases h)
  case AttributeName =>
    have g1 := hi.f1 (.inr htt)
    have g2 : s1.state.inStart = true := by rcases hf.g2 g1 with h | h | h <;> first | exact h | (rw [htt] at h; cases h)
    refine PRes.bindEq hx fun t _ => ⟨_, rfl, ?_⟩
    obtain ⟨g3, g5, e', g4⟩ := h.inn g1
    refine .inner g2 g3 g5 ⟨e', ?_⟩ (fun h0 => rfl)
    simp only [g4, shift_eq, shiftAttrs_insert, t2]
  case DelimiterAssign =>
    have g0 := hi.f2 htt
    have g1 : s.state.inStart = true := by rw [g0]; rfl
    have g2 : s1.state.inStart = true := by rcases hf.g2 g1 with h | h | h <;> first | exact h | (rw [htt] at h; cases h)
    have g5 := h.pend (.inl g0)
    obtain ⟨g3, g6, e', g4⟩ := h.inn g1
    simp only [g5]
    cases hp : p.pending with
    | none =>
      exact ⟨_, rfl, .inner g2 g3 g6 ⟨e', g4⟩ (fun _ => g5)⟩
    | some a =>
      have e1 : attrSetValue p'.cur.attributes a [] = (attrSetValue p.cur.attributes a []).map (shiftAttrs k) := by
        rw [g4, shift_eq]; exact shiftAttrs_set ..
      simp only [e1]
      cases attrSetValue p.cur.attributes a [] with
      | error e => rfl
      | ok m =>
        refine ⟨_, rfl, .inner g2 g3 g6 ⟨e', ?_⟩ (fun _ => ?_)⟩
        · simp only [g4, shift_eq]
        · rfl
  case AttributeValue =>
    obtain ⟨g0, g2⟩ := hi.f3 htt
    have g1 : s.state.inStart = true := by rw [g0]; rfl
    have g2 : s1.state.inStart = true := by rw [g2]; rfl
    have g5 := h.pend (.inr g0)
    obtain ⟨g3, g7, e', g4⟩ := h.inn g1
    have g6 : ¬ (s1.state = .AfterAttributeName ∨ s1.state = .BeforeAttributeValue) := by
      intro h0
      rcases hi.f4 h0 with h | ⟨h | h, _⟩ <;> (rw [htt] at h; cases h)
    refine PRes.bindEq hx fun t _ => ?_
    simp only [g5]
    cases hp : p.pending with
    | none =>
      exact ⟨_, rfl, .inner g2 g3 g7 ⟨e', g4⟩ (fun _ => g5)⟩
    | some a =>
      have e1 : attrSetValue p'.cur.attributes a t = (attrSetValue p.cur.attributes a t).map (shiftAttrs k) := by
        rw [g4, shift_eq]; exact shiftAttrs_set ..
      simp only [e1]
      cases attrSetValue p.cur.attributes a t with
      | error e => rfl
      | ok m =>
        refine ⟨_, rfl, .inner g2 g3 g7 ⟨e', ?_⟩ (fun h0 => absurd h0 g6)⟩
        simp only [g4, shift_eq]
  case StartTagClose =>
    obtain ⟨g1, g2⟩ := hf.g3 (.inl htt)
    have g2' : s1.state.inEnd = false := by
      cases h0 : s1.state.inEnd with
      | false => rfl
      | true =>
        rcases hf.g5 h0 with h | h
        · rw [inEnd_inStart h] at g1; cases g1
        · rw [htt] at h; cases h
    obtain ⟨g3, g5, e', g4⟩ := h.inn g1
    have e1 : p.parents.isEmpty = false := by
      cases hp : p.parents with
      | nil => exact absurd hp g3.ne.1
      | cons => rfl
    have e2 : p'.parents.isEmpty = false := by
      cases hp : p'.parents with
      | nil => exact absurd hp g3.ne.2
      | cons => rfl
    simp only [e1, e2, Bool.false_eq_true, if_false, t4]
    have e3 : p'.cur.tag = p.cur.tag := by rw [g4, shift_eq]
    refine PRes.ite Iff.rfl (fun _ => PRes.ite (by rw [e3]) (fun _ => ?_) (fun _ => ?_)) (fun _ => ?_)
    · refine PRes.mono (pop_start (n := { p.cur with stop := s1.tokenEnd, startTagEnd := some s1.tokenEnd, closed := true })
        g3 g5 rfl ?_) (fun q q' hq => .outer g2 g2' hq)
      simp only [g4, shift_eq, t3]
      rfl
    · refine ⟨_, rfl, .outer g2 g2' ?_⟩
      have := g3.cons (q := { p.cur with stop := s1.tokenEnd, startTagEnd := some s1.tokenEnd }) g5
      rw [shift_eq] at this
      simp only [g4, shift_eq, t3]
      exact this
    · refine PRes.mono (pop_start (n := { p.cur with stop := s1.tokenEnd }) g3 g5 rfl ?_) (fun q q' hq => .outer g2 g2' hq)
      simp only [g4, shift_eq, t3]
  case StartTagSelfClose =>
    obtain ⟨g1, g2⟩ := hf.g3 (.inr htt)
    have g2' : s1.state.inEnd = false := by
      cases h0 : s1.state.inEnd with
      | false => rfl
      | true =>
        rcases hf.g5 h0 with h | h
        · rw [inEnd_inStart h] at g1; cases g1
        · rw [htt] at h; cases h
    obtain ⟨g3, g5, e', g4⟩ := h.inn g1
    have e1 : p.parents.isEmpty = false := by
      cases hp : p.parents with
      | nil => exact absurd hp g3.ne.1
      | cons => rfl
    have e2 : p'.parents.isEmpty = false := by
      cases hp : p'.parents with
      | nil => exact absurd hp g3.ne.2
      | cons => rfl
    simp only [e1, e2, Bool.false_eq_true, if_false]
    refine PRes.mono (pop_start (n := { p.cur with stop := s1.tokenEnd, startTagEnd := some s1.tokenEnd, closed := true })
      g3 g5 rfl ?_) (fun q q' hq => .outer g2 g2' hq)
    simp only [g4, shift_eq, t3]
    rfl
  case EndTagOpen =>
    obtain ⟨g1, g2⟩ := hf.g6 htt
    refine ⟨_, rfl, ?_⟩
    refine ⟨fun h0 => (by rw [inEnd_inStart g2] at h0; cases h0), fun _ => h.out g1, fun h0 => ?_,
      fun _ => ⟨s1.tokenOffset, by omega, by have := heo htt; omega, h.out g1, rfl, ?_, rfl⟩⟩
    · rcases h0 with h0 | h0 <;> (rw [h0] at g2; cases g2)
    · simp only [t2]
  case EndTag =>
    have g1 := hf.g7 (.inl htt)
    refine PRes.bindEq hx fun t _ => ⟨_, rfl, ?_⟩
    have hid := idle (by rw [htt]; decide) (by rw [htt]; decide) (by rw [htt]; decide) (by rw [htt]; decide) (by rw [htt]; decide)
    refine ⟨hid.inn, hid.out, hid.pend, fun h0 => ?_⟩
    obtain ⟨e, k1, k2, k3⟩ := hid.ends h0
    refine ⟨e, k1, k2, k3.stack, k3.start, k3.start', ?_⟩
    simp only [hu, hc]
  case EndTagClose =>
    have g1 := hf.g7 (.inr htt)
    have g0 := inEnd_inStart g1
    obtain ⟨e, k1, k2, k3⟩ := h.ends g1
    have hst := h.out g0
    have hid := idle (by rw [htt]; decide) (by rw [htt]; decide) (by rw [htt]; decide) (by rw [htt]; decide) (by rw [htt]; decide)
    have hl : p'.parents.length = p.parents.length := by simpa using hst.length
    simp only [hu, hc, k3.name, matchDepth_ins hst]
    refine PRes.ite Iff.rfl (fun hd => ?_) (fun _ => ⟨_, rfl, hid⟩)
    rw [hl]
    have hle : matchDepth c.uni c.caseSensitive p.endTagName p.cur p.parents ≤ p.parents.length := matchDepth_le'
    refine PRes.bind (popUnclosed_ins k3 k1 (by omega)) fun q q' hq => ?_
    rw [t3]
    refine PRes.mono (hq.1.pop (by simp only [Sc.tokenEnd]; omega)) (fun r r' hr => ?_)
    have g2 : s1.state.inStart = false := by
      cases h0 : s1.state.inStart with
      | false => rfl
      | true =>
        rcases hf.g1 h0 with h | h
        · rw [g0] at h; cases h
        · rw [htt] at h; cases h
    refine ⟨fun h0 => (by rw [g2] at h0; cases h0), fun _ => hr.stack, fun h0 => ?_, fun _ => ⟨e, k1, by omega, hr⟩⟩
    rcases h0 with h0 | h0 <;> (rw [h0] at g2; cases g2)
  all_goals exact ⟨_, rfl, idle (by rw [htt]; decide) (by rw [htt]; decide) (by rw [htt]; decide) (by rw [htt]; decide) (by rw [htt]; decide)⟩

/-! ### Whole texts -/

variable {void : List Str}

theorem Step.endOpen {s s' : Sc} (h : Step c s s') (he : s'.tokenType = .EndTagOpen) : s.pos < s'.pos := by
  obtain ⟨_, h1 | ⟨h0, h1 | h1⟩⟩ := h.facts
  · rw [h1.2] at he; cases he
  · exact h1.2.1
  · obtain ⟨h2, h3, h4, h5, h6, h7⟩ := h1
    rcases h7 with ⟨h7, _⟩ | ⟨h7, _⟩ <;> rw [h7] at he <;> cases he

/-- Behind the insertion the parsers run in parallel. -/
theorem parseLoop_ins {pre pre' : Str} {f : Nat} {s sA sB : Sc} {p p' : PState}
    (hA : Eqv (c.behind pre) sA (s.shift pre.length)) (hB : Eqv (c.behind pre') sB (s.shift pre'.length))
    (hk : pre'.length = P + k) (hP : pre.length = P) (h : PIns P k ns sA.state sA.pos p p') :
    PRes (fun q q' => ∃ st pos, PIns P k ns st pos q q') (parseLoop (c.behind pre) void f p sA)
      (parseLoop (c.behind pre') void f p' sB) := by
  induction f generalizing s sA sB p p' with
  | zero => rfl
  | succ f ih =>
    unfold parseLoop
    have hscA : scan (c.behind pre) (s.shift pre.length) = (scan c s).map (Sc.shift pre.length) := scan_shift
    have hscB : scan (c.behind pre') (s.shift pre'.length) = (scan c s).map (Sc.shift pre'.length) := scan_shift
    have hrA := internalScan_rel hA
    have hrB := internalScan_rel hB
    rw [← scan_eq_internalScan, ← scan_eq_internalScan, hscA] at hrA
    rw [← scan_eq_internalScan, ← scan_eq_internalScan, hscB] at hrB
    cases h1 : scan c s with
    | error e =>
      rw [h1] at hrA hrB
      cases h2 : scan (c.behind pre) sA with
      | ok s2 => rw [h2] at hrA; cases hrA
      | error e' =>
        cases h3 : scan (c.behind pre') sB with
        | ok s2 => rw [h3] at hrB; cases hrB
        | error e' => rw [h2] at hrA; rw [h3] at hrB; cases hrA; cases hrB; rfl
    | ok s1 =>
      rw [h1] at hrA hrB
      cases h2 : scan (c.behind pre) sA with
      | error e' => rw [h2] at hrA; cases hrA
      | ok s2 =>
        cases h3 : scan (c.behind pre') sB with
        | error e' => rw [h3] at hrB; cases hrB
        | ok s3 =>
          rw [h2] at hrA
          rw [h3] at hrB
          cases hrA with
          | ok htA hhA =>
            cases hrB with
            | ok htB hhB =>
              have ht : s3.tok = s2.tok.shift k := by
                have a1 : s2.tok = s1.tok.shift pre.length := htA
                have a2 : s3.tok = s1.tok.shift pre'.length := htB
                rw [a1, a2, hk, hP]
                simp only [Tok.shift, Nat.add_assoc]
              have htt : s3.tokenType = s2.tokenType := congrArg Tok.type ht
              change PRes _ (if s2.tokenType = .EOS then _ else _) (if s3.tokenType = .EOS then _ else _)
              refine PRes.ite (by rw [htt]) (fun _ => ⟨_, rfl, _, _, h⟩) (fun hne => ?_)
              have hst := scan_step h2
              have hpos : sA.pos ≤ s2.pos := by
                rcases Nat.lt_or_ge (c.behind pre).src.length sA.pos with h | h
                · exact absurd (hst.eos_iff.2 (by omega)) hne
                · exact (hst.pos_le h).1
              have hPA : P ≤ sA.pos := by
                have : sA.pos = s.pos + pre.length := hA.2.1
                omega
              have hx : tokenText (c.behind pre') s3 = tokenText (c.behind pre) s2 := by
                rw [tokenText_behind (s := s1) htA, tokenText_behind (s := s1) htB]
              have hstep := parseStep_ins (c := c.behind pre) (c' := c.behind pre') (void := void) h (hst.locFacts hne)
                (hst.infoFacts hne) (s1' := s3) ht rfl rfl hx hPA hst.offset_eq hpos hst.endOpen
              refine PRes.bind hstep fun q q' hq => ih (s := s1)
                ⟨congrArg Tok.state htA, congrArg Tok.stop htA, hhA⟩ ⟨congrArg Tok.state htB, congrArg Tok.stop htB, hhB⟩ hq

theorem finish_ins {len : Nat} {q q' : Node} {l l' : List Node} (h : IRel P k ns (q :: l) (q' :: l')) (hl : P ≤ len) :
    (finishAll (len + k) q' l').children = insertAll P k ns (finishAll len q l).children := by
  induction l generalizing q q' l' with
  | nil =>
    obtain ⟨r', e, h⟩ := h
    cases e
    exact h
  | cons q2 qs ih =>
    have hlen := h.length
    cases l' with
    | nil => simp at hlen
    | cons q2' qs' =>
      unfold finishAll
      exact ih (h.leave hl)

theorem PIns.finish {st : SS} {pos len : Nat} {p p' : PState} (h : PIns P k ns st pos p p') (hl : P ≤ len) :
    (finishAll (len + k) p'.cur p'.parents).children = insertAll P k ns (finishAll len p.cur p.parents).children := by
  cases hs : st.inStart with
  | false => exact finish_ins (h.out hs) hl
  | true =>
    obtain ⟨h1, h0, e', h2⟩ := h.inn hs
    obtain ⟨cur, ps, es, en, pe⟩ := p
    obtain ⟨cur', ps', es', en', pe'⟩ := p'
    simp only at h1 h2 h0 ⊢
    cases ps with
    | nil => exact h1.elim
    | cons q qs =>
      cases ps' with
      | nil => exact absurd rfl h1.ne.2
      | cons q' qs' =>
        unfold finishAll
        refine finish_ins ?_ hl
        have := h1.add (n := { cur with stop := len, closed := false }) h0
        rw [h2]
        rw [shift_eq] at this ⊢
        exact this

theorem parseLoop_more {f g : Nat} {p r : PState} {s : Sc} (h : parseLoop c void f p s = .ok r) :
    parseLoop c void (f + g) p s = .ok r := by
  induction f generalizing s p with
  | zero => cases h
  | succ f ih =>
    rw [show f + 1 + g = (f + g) + 1 by omega]
    unfold parseLoop at h ⊢
    obtain ⟨s1, h1, h⟩ := bind_ok h
    rw [h1]
    simp only [bind, Except.bind] at h ⊢
    split at h
    · rename_i he; rw [if_pos he]; exact h
    · rename_i he
      rw [if_neg he]
      cases h2 : parseStep c void p s1 with
      | error e => rw [h2] at h; cases h
      | ok q => rw [h2] at h; exact ih h

theorem siblings_stop {lo hi : Nat} {l : List Node} (h : Siblings lo l hi) : ∀ n ∈ l, n.start < n.stop ∧ n.stop ≤ hi := by
  induction l generalizing lo with
  | nil => simp
  | cons m l ih =>
    intro n hn
    rcases List.mem_cons.1 hn with rfl | hn
    · exact ⟨h.2.1, h.2.2.le⟩
    · exact ih h.2.2 n hn

theorem Kids.before {lo hi : Nat} {l : List Node} (h : Kids c void NoLeft lo hi l) (hh : hi ≤ P) : ∀ n ∈ l, Before P n := by
  intro n hn
  obtain ⟨h1, h2⟩ := siblings_stop h.sib n hn
  refine ⟨by omega, fun h3 => ?_⟩
  rcases h3.2 with h4 | ⟨_, h4⟩
  · omega
  · exact (h.left n hn h4).2.2.1

theorem old_init {hi : Nat} {l l' : List Node} (h : StackOK c void NoLeft hi l) (hh : hi ≤ P) (hs : SRel [] 0 l l') :
    OldRel P l l' := by
  induction l generalizing hi l' with
  | nil => exact h.elim
  | cons q qs ih =>
    cases qs with
    | nil =>
      obtain ⟨r', e, hr⟩ := hs
      exact ⟨r', e, by rw [hr, List.nil_append, map_shift_zero], Kids.before h hh⟩
    | cons q2 qs =>
      obtain ⟨qs', e, hs⟩ := hs
      obtain ⟨ho, h2⟩ := h
      obtain ⟨x, he1, he2, _, _, _, _, he6⟩ := ho.ste
      have hlt : q.start < hi := by have := he6.sib.le; omega
      rw [shift_zero] at e
      exact ⟨qs', e, ⟨by omega, by rw [he1]; simp, ho.ets⟩, he6.before hh, ih h2 (by omega) hs⟩

/-- At the insertion. -/
theorem ins_init {hi : Nat} {q q' : Node} {l l' : List Node} (h : StackOK c void NoLeft hi (q :: l)) (hh : hi ≤ P)
    (hs : SRel [] 0 (q :: l) (q' :: l')) : IRel P k ns (q :: l) ({ q' with children := q'.children ++ ns } :: l') := by
  have ho := old_init h hh hs
  cases l with
  | nil =>
    obtain ⟨r', e, h1, h2⟩ := ho
    cases e
    exact ⟨_, rfl, by simp only [h1, insertAll_before h2]⟩
  | cons q2 qs =>
    obtain ⟨qs', e, h1, h2, h3⟩ := ho
    cases e
    exact ⟨_, _, rfl, .inr ⟨h1, by simp only [insertAll_before h2], h3⟩⟩

/-- The parsers at the end of the common text. -/
theorem parse_to_content {u : Uni} {cs : Bool} {a x y : Str} {nx ny : List Node}
    (ha : a = [] ∨ ∃ i tk, EndsBracket (parserCfg u cs a) 0 .WithinContent i tk ∧ tk.state = .WithinContent)
    (hx : parse u cs void (a ++ x) = .ok nx) (hy : parse u cs void (a ++ y) = .ok ny) :
    ∃ s q q' rx ry, InText s a.length ∧ InContent (parserCfg u cs (a ++ x)) void q a.length ∧
      SRel [] 0 (q.cur :: q.parents) (q'.cur :: q'.parents) ∧
      Out (parserCfg u cs (a ++ x)) void q s rx ∧ Out (parserCfg u cs (a ++ y)) void q' s ry ∧
      (finishAll (a ++ x).length rx.cur rx.parents).children = nx ∧
      (finishAll (a ++ y).length ry.cur ry.parents).children = ny := by
  unfold parse at hx hy
  obtain ⟨rx, hx1, hx2⟩ := bind_ok hx
  obtain ⟨ry, hy1, hy2⟩ := bind_ok hy
  have hx2 := Except.ok.inj hx2
  have hy2 := Except.ok.inj hy2
  have hinit : PShift [] 0 (Sc.new 0 .WithinContent).state (PState.init (a ++ x).length) (PState.init (a ++ y).length) :=
    .outer rfl rfl ⟨_, rfl, rfl⟩
  rcases ha with rfl | ⟨i, t, hb, hst⟩
  · exact ⟨.new 0 .WithinContent, _, _, rx, ry, ⟨rfl, rfl⟩, PInv.init (c := parserCfg u cs ([] ++ x)), hinit.out rfl,
      ⟨_, hx1⟩, ⟨_, hy1⟩, hx2, hy2⟩
  · obtain ⟨z, hz, hw, _, h1⟩ := hb.split
    have hz : a = z ++ [62] := hz
    obtain ⟨s2, hr, hlen⟩ := tokens_run hb.toks
    have Gx : Agree z (parserCfg u cs a) (parserCfg u cs (a ++ x)) :=
      ⟨⟨[], hz⟩, ⟨x, by simp [parserCfg, hz]⟩, rfl, rfl, rfl, hw⟩
    have Gxy : Agree z (parserCfg u cs (a ++ x)) (parserCfg u cs (a ++ y)) :=
      ⟨⟨x, by simp [parserCfg, hz]⟩, ⟨y, by simp [parserCfg, hz]⟩, rfl, rfl, rfl, hw⟩
    have hrx := hr.keeps Gx (Nat.zero_le _) rfl h1 hb.kind hb.nonempty
    have hl := hr.last
    have hm := hr.length_mu
    have hm2 := mu_le (parserCfg u cs a) (.new 0 .WithinContent)
    have hm3 : (i ++ [t]).length ≤ 2 * a.length := by
      have : 2 * ((parserCfg u cs a).src.length - (Sc.new 0 .WithinContent).pos) = 2 * a.length := rfl
      omega
    obtain ⟨f, hf⟩ : ∃ f, 2 * (a ++ x).length + 1 = (i ++ [t]).length + f :=
      ⟨2 * (a ++ x).length + 1 - (i ++ [t]).length, by
        rw [List.length_append (as := a)]; omega⟩
    obtain ⟨f', hf'⟩ : ∃ f', 2 * (a ++ y).length + 1 = (i ++ [t]).length + f' :=
      ⟨2 * (a ++ y).length + 1 - (i ++ [t]).length, by
        rw [List.length_append (as := a)]; omega⟩
    rw [hf] at hx1
    rw [hf'] at hy1
    obtain ⟨q, q', hq, hq1, hq2, hq3⟩ := parseLoop_prefix (f' := f') Gxy hrx (Nat.zero_le _) rfl h1 hb.kind hb.nonempty hinit hx1
    rw [hq2] at hy1
    have hs2 : s2.state = .WithinContent := by rw [← hst, ← hl]; rfl
    have hpos : s2.pos = a.length := by
      have : t.stop = s2.pos := by rw [← hl]; rfl
      rw [hz]; simp; omega
    have hinv := hq3 (PInv.init (c := parserCfg u cs (a ++ x)))
    unfold PInv at hinv
    rw [hs2] at hinv
    simp only [hpos] at hinv
    exact ⟨s2, q, q', rx, ry, ⟨hs2, hpos⟩, hinv, hq.out (by rw [hs2]; rfl), ⟨_, hq1⟩, ⟨_, hy1⟩, hx2, hy2⟩

theorem eqv_text {y pre : Str} {u : Uni} {cs : Bool} {s : Sc} (h : InText s pre.length) :
    Eqv ((parserCfg u cs y).behind pre) s ((Sc.new 0 .WithinContent).shift pre.length) :=
  eqv_new (c := parserCfg u cs y) pre (st := .WithinContent) h.state h.pos rfl

theorem parse_insert {u : Uni} {cs : Bool} {pre y : Str} {items : List Item} {nx ny : List Node}
    (hpre : EndsInContent u cs pre) (hl : AllLegal void items)
    (hx : parse u cs void (pre ++ y) = .ok nx) (hy : parse u cs void (pre ++ printAll items ++ y) = .ok ny) :
    ny = insertAll pre.length (printAll items).length (nodesAll pre.length items) nx := by
  obtain ⟨a, t, hp, ht, ha⟩ := hpre
  have e1 : pre ++ y = a ++ (t ++ y) := by rw [hp]; simp
  have e2 : pre ++ printAll items ++ y = a ++ (t ++ (printAll items ++ y)) := by rw [hp]; simp
  have hlen : pre.length = a.length + t.length := by rw [hp]; simp
  rw [e1] at hx
  rw [e2] at hy
  obtain ⟨s, q, q', rx, ry, h1, h2, h3, h4, h5, h6, h7⟩ := parse_to_content ha hx hy
  rw [← e1] at h4 h6 h2
  rw [← e2] at h5 h7
  obtain ⟨sA, h8, h9⟩ := h4.text (t := t) (x := y) h1 (by simp [parserCfg, e1]) ht
  obtain ⟨sB, h10, h11⟩ := h5.text (t := t) (x := printAll items ++ y) h1 (by simp [parserCfg, e2]) ht
  obtain ⟨sC, q3, h12, h13, h14, h15⟩ := h11.items (x := y) h10 items (by
    rw [← hlen]; simp [parserCfg]) hl
  rw [← hlen] at h8 h12 h14
  have hin : InContent (parserCfg u cs (pre ++ y)) void q pre.length :=
    StackOK.mono h2 (by omega) (by simp [parserCfg])
  have hrel : IRel pre.length (printAll items).length (nodesAll pre.length items) (q.cur :: q.parents) (q3.cur :: q3.parents) := by
    rw [h14, h15]
    exact ins_init hin (Nat.le_refl _) h3
  have hst : PIns pre.length (printAll items).length (nodesAll pre.length items) sA.state sA.pos q q3 :=
    .outer (by rw [h8.state]; rfl) (by rw [h8.state]; rfl) hrel
  obtain ⟨fA, h9⟩ := h9
  obtain ⟨fB, h13⟩ := h13
  have h9 := parseLoop_more (g := fB) h9
  have h13 := parseLoop_more (g := fA) h13
  rw [Nat.add_comm] at h13
  have hpos : (pre ++ printAll items).length = pre.length + (printAll items).length := by simp
  have hsim := parseLoop_ins (c := parserCfg u cs y) (void := void) (pre := pre) (pre' := pre ++ printAll items) (f := fA + fB)
    (eqv_text h8) (eqv_text (by rw [hpos]; exact h12)) hpos rfl hst
  rw [show parseLoop ((parserCfg u cs y).behind pre) void (fA + fB) q sA = .ok rx from h9,
    show parseLoop ((parserCfg u cs y).behind (pre ++ printAll items)) void (fA + fB) q3 sC = .ok ry from h13] at hsim
  obtain ⟨r', e, st, pos, hfin⟩ := hsim
  cases e
  have := hfin.finish (len := (pre ++ y).length) (by simp)
  rw [← h6, ← h7, ← this]
  congr 2
  simp; omega

/-! ### Without offsets -/

mutual
theorem outline_shift (k : Nat) : ∀ n : Node, outline (n.shift k) = outline n
  | ⟨tag, start, stop, children, closed, ste, ets, attrs⟩ => by
    simp only [Node.shift, outline, outlines_shift k children, shiftAttrs]
    congr 1
    · cases ste <;> rfl
    · cases ets <;> rfl
    · simp
theorem outlines_shift (k : Nat) : ∀ l : List Node, outlines (Node.shifts k l) = outlines l
  | [] => rfl
  | n :: l => by simp only [Node.shifts, outlines, outline_shift k n, outlines_shift k l]
end

mutual
theorem outline_insert (P k : Nat) : ∀ n : Node, outline (insertNode P k [] n) = outline n
  | ⟨tag, start, stop, children, closed, ste, ets, attrs⟩ => by
    simp only [insertNode, outline, outlines_insert P k children]
    congr 1
    cases ets <;> rfl
theorem outlines_insert (P k : Nat) : ∀ l : List Node, outlines (insertAll P k [] l) = outlines l
  | [] => by simp only [insertAll]
  | n :: l => by
    have h1 := outline_insert P k n
    have h2 := outlines_insert P k l
    have h3 := outlines_shift k l
    have h4 := outlines_shift k (n :: l)
    rw [shifts_map] at h3 h4
    rw [insertAll]
    split
    · simp only [outlines, h1, h3]
    · split
      · simp only [outlines, h2]
      · rw [List.nil_append, h4]
end

theorem nodesAll_inert {i : Nat} {items : List Item} (h : ∀ it ∈ items, it.isInert) : nodesAll i items = [] := by
  induction items generalizing i with
  | nil => rfl
  | cons it l ih =>
    rw [nodesAll, ih (fun x hx => h x (by simp [hx]))]
    have := h it (by simp)
    cases it <;> first | rfl | exact this.elim

end Html
