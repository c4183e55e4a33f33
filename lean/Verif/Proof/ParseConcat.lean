import Verif.Proof.Concat

/-! # The nodes of a text that is continued behind a closing bracket -/

namespace Html
open Spec

/-! ### Moved nodes -/

theorem shifts_map (k : Nat) (l : List Node) : Node.shifts k l = l.map (Node.shift k) := by
  induction l with
  | nil => rfl
  | cons n l ih => simp [Node.shifts, ih]

theorem shift_eq (k : Nat) (n : Node) : n.shift k =
    ⟨n.tag, n.start + k, n.stop + k, n.children.map (Node.shift k), n.closed, n.startTagEnd.map (· + k),
      n.endTagStart.map (· + k), shiftAttrs k n.attributes⟩ := by
  cases n
  simp only [Node.shift, shifts_map]

mutual
theorem shift_zero : ∀ n : Node, n.shift 0 = n
  | ⟨tag, start, stop, children, closed, ste, ets, attrs⟩ => by
    simp only [Node.shift, shifts_zero children, Nat.add_zero, shiftAttrs]
    simp
theorem shifts_zero : ∀ l : List Node, Node.shifts 0 l = l
  | [] => rfl
  | n :: l => by simp only [Node.shifts, shift_zero n, shifts_zero l]
end

theorem map_shift_zero (l : List Node) : l.map (Node.shift 0) = l := by rw [← shifts_map, shifts_zero]

theorem shiftAttrs_insert (k : Nat) (m : List (Str × Attr)) (a : Str) (v : Attr) :
    shiftAttrs k (attrInsert m a v) = attrInsert (shiftAttrs k m) a ⟨v.value, v.offset + k⟩ := by
  induction m with
  | nil => rfl
  | cons b m ih =>
    obtain ⟨b1, b2⟩ := b
    simp only [attrInsert, shiftAttrs, List.map_cons] at ih ⊢
    split
    · simp
    · simp [ih]

theorem shiftAttrs_set (k : Nat) (m : List (Str × Attr)) (a v : Str) :
    attrSetValue (shiftAttrs k m) a v = (attrSetValue m a v).map (shiftAttrs k) := by
  induction m with
  | nil => rfl
  | cons b m ih =>
    obtain ⟨b1, b2⟩ := b
    simp only [attrSetValue, shiftAttrs, List.map_cons] at ih ⊢
    split
    · rfl
    · rw [ih]
      cases attrSetValue m a v <;> rfl

/-! ### Related stacks of open nodes -/

/-- The nodes of the second stack are those of the first one, moved; the document has further children in front. -/
def SRel (A : List Node) (k : Nat) : List Node → List Node → Prop
  | [], _ => False
  | [r], l' => ∃ r', l' = [r'] ∧ r'.children = A ++ r.children.map (Node.shift k)
  | q :: q2 :: qs, l' => ∃ qs', l' = q.shift k :: qs' ∧ SRel A k (q2 :: qs) qs'

variable {A : List Node} {k : Nat}

theorem SRel.length {l l' : List Node} (h : SRel A k l l') : l'.length = l.length := by
  induction l generalizing l' with
  | nil => exact h.elim
  | cons q qs ih =>
    cases qs with
    | nil => obtain ⟨r', e, _⟩ := h; rw [e]; rfl
    | cons q2 qs => obtain ⟨qs', e, h⟩ := h; rw [e, List.length_cons, ih h]; rfl

theorem SRel.ne {l l' : List Node} (h : SRel A k l l') : l ≠ [] ∧ l' ≠ [] := by
  cases l with
  | nil => exact h.elim
  | cons q qs =>
    refine ⟨by simp, fun e => ?_⟩
    have := h.length
    rw [e] at this
    simp at this

theorem SRel.cons {q : Node} {l l' : List Node} (h : SRel A k l l') : SRel A k (q :: l) (q.shift k :: l') := by
  cases l with
  | nil => exact h.elim
  | cons q2 qs => exact ⟨l', rfl, h⟩

theorem SRel.uncons {q q' : Node} {l l' : List Node} (h : SRel A k (q :: l) (q' :: l')) (hl : l ≠ []) :
    q' = q.shift k ∧ SRel A k l l' := by
  cases l with
  | nil => exact absurd rfl hl
  | cons q2 qs =>
    obtain ⟨qs', e, h⟩ := h
    cases e
    exact ⟨rfl, h⟩

theorem SRel.add {q q' n : Node} {l l' : List Node} (h : SRel A k (q :: l) (q' :: l')) :
    SRel A k (q.addChild n :: l) (q'.addChild (n.shift k) :: l') := by
  cases l with
  | nil =>
    obtain ⟨r', e, h⟩ := h
    cases e
    refine ⟨_, rfl, ?_⟩
    simp only [Node.addChild, h, List.map_append, List.map_cons, List.map_nil, List.append_assoc]
  | cons q2 qs =>
    obtain ⟨e, h⟩ := h.uncons (by simp)
    refine ⟨_, ?_, h⟩
    rw [e]
    simp only [Node.addChild, shift_eq, List.map_append, List.map_cons, List.map_nil]

/-! ### Related states -/

/-- States of the two parsers, outside start tags. -/
structure ORel (A : List Node) (k : Nat) (p p' : PState) : Prop where
  stack : SRel A k (p.cur :: p.parents) (p'.cur :: p'.parents)
  start : p'.endTagStart = p.endTagStart.map (· + k)
  name : p'.endTagName = p.endTagName

/-- States of the two parsers when the scanner is in state `st`. -/
structure PShift (A : List Node) (k : Nat) (st : SS) (p p' : PState) : Prop where
  inn : st.inStart = true → SRel A k p.parents p'.parents ∧ ∃ e', p'.cur = { p.cur.shift k with stop := e' }
  out : st.inStart = false → SRel A k (p.cur :: p.parents) (p'.cur :: p'.parents)
  pend : st = .AfterAttributeName ∨ st = .BeforeAttributeValue → p'.pending = p.pending
  ends : st.inEnd = true → p'.endTagStart = p.endTagStart.map (· + k) ∧ p'.endTagName = p.endTagName

/-- Results of the two parsers. -/
def PRes (Q : PState → PState → Prop) (r r' : R PState) : Prop :=
  match r with
  | .ok p => ∃ p', r' = .ok p' ∧ Q p p'
  | .error e => r' = .error e

theorem PRes.bind {Q Q' : PState → PState → Prop} {r r' : R PState} {f f' : PState → R PState} (h : PRes Q r r')
    (hf : ∀ p p', Q p p' → PRes Q' (f p) (f' p')) : PRes Q' (r >>= f) (r' >>= f') := by
  cases r with
  | error e => cases h; rfl
  | ok p =>
    obtain ⟨p', e, h⟩ := h
    cases e
    exact hf p p' h

theorem PRes.bindEq {α : Type} {Q : PState → PState → Prop} {r r' : R α} {f f' : α → R PState} (h : r' = r)
    (hf : ∀ a, r = .ok a → PRes Q (f a) (f' a)) : PRes Q (r >>= f) (r' >>= f') := by
  subst h
  cases r' with
  | error e => rfl
  | ok a => exact hf a rfl

theorem PRes.mono {Q Q' : PState → PState → Prop} {r r' : R PState} (h : PRes Q r r') (hq : ∀ p p', Q p p' → Q' p p') :
    PRes Q' r r' := by
  cases r with
  | error e => exact h
  | ok p =>
    obtain ⟨p', e, h⟩ := h
    exact ⟨p', e, hq _ _ h⟩

theorem PRes.ite {Q : PState → PState → Prop} {x x' : Prop} [Decidable x] [Decidable x'] {a a' b b' : R PState}
    (hx : x ↔ x') (ha : x → PRes Q a a') (hb : ¬ x → PRes Q b b') : PRes Q (if x then a else b) (if x' then a' else b') := by
  by_cases h : x
  · rw [if_pos h, if_pos (hx.1 h)]; exact ha h
  · rw [if_neg h, if_neg (mt hx.2 h)]; exact hb h

theorem pop_rel {p p' : PState} (h : ORel A k p p') : PRes (ORel A k) p.pop p'.pop := by
  obtain ⟨cur, ps, es, en, pe⟩ := p
  obtain ⟨cur', ps', es', en', pe'⟩ := p'
  obtain ⟨h1, h2, h3⟩ := h
  simp only at h1 h2 h3
  cases ps with
  | nil =>
    obtain ⟨r', e, _⟩ := h1
    cases e
    rfl
  | cons q qs =>
    obtain ⟨e, h⟩ := h1.uncons (by simp)
    cases ps' with
    | nil => exact absurd rfl h.ne.2
    | cons q' qs' =>
      refine ⟨_, rfl, ?_, h2, h3⟩
      rw [e]
      exact h.add

theorem pop_stack {p p' : PState} (h : SRel A k (p.cur :: p.parents) (p'.cur :: p'.parents)) :
    PRes (fun q q' => SRel A k (q.cur :: q.parents) (q'.cur :: q'.parents)) p.pop p'.pop := by
  obtain ⟨cur, ps, es, en, pe⟩ := p
  obtain ⟨cur', ps', es', en', pe'⟩ := p'
  have := pop_rel (p := ⟨cur, ps, none, none, none⟩) (p' := ⟨cur', ps', none, none, none⟩) ⟨h, rfl, rfl⟩
  cases ps with
  | nil =>
    cases ps' with
    | nil => rfl
    | cons => have := h.length; simp at this
  | cons q qs =>
    obtain ⟨q', e, h2⟩ := this
    cases ps' with
    | nil => cases e
    | cons => cases e; exact ⟨_, rfl, h2.stack⟩

theorem popUnclosed_rel {n : Nat} {p p' : PState} (h : ORel A k p p') (hn : n ≤ p.parents.length) :
    PRes (fun q q' => ORel A k q q' ∧ q.parents.length = p.parents.length - n) (popUnclosed n p) (popUnclosed n p') := by
  induction n generalizing p p' with
  | zero => exact ⟨p', rfl, h, rfl⟩
  | succ n ih =>
    obtain ⟨cur, ps, es, en, pe⟩ := p
    obtain ⟨cur', ps', es', en', pe'⟩ := p'
    obtain ⟨h1, h2, h3⟩ := h
    simp only at h1 h2 h3 hn
    subst h2
    cases es with
    | none => rfl
    | some e =>
      cases ps with
      | nil => simp at hn
      | cons q qs =>
        obtain ⟨e1, h⟩ := h1.uncons (by simp)
        cases ps' with
        | nil => exact absurd rfl h.ne.2
        | cons q' qs' =>
          subst e1
          have h0 : ORel A k ⟨q.addChild { cur with stop := e, closed := false }, qs, some e, en, pe⟩
              ⟨q'.addChild { cur.shift k with stop := e + k, closed := false }, qs', some (e + k), en', pe'⟩ := by
            refine ⟨?_, rfl, h3⟩
            have := h.add (n := { cur with stop := e, closed := false })
            rw [shift_eq] at this ⊢
            exact this
          simp only [List.length_cons] at hn
          exact PRes.mono (ih h0 (by simp only; omega)) (fun a a' ha => ⟨ha.1, by
            rw [ha.2]; simp only [List.length_cons]; omega⟩)

theorem matchDepth_rel {u : Uni} {cs : Bool} {nm : Option Str} {q q' : Node} {l l' : List Node}
    (h : SRel A k (q :: l) (q' :: l')) : matchDepth u cs nm q' l' = matchDepth u cs nm q l := by
  induction l generalizing q q' l' with
  | nil =>
    obtain ⟨r', e, _⟩ := h
    cases e
    rfl
  | cons q2 qs ih =>
    obtain ⟨e, h⟩ := h.uncons (by simp)
    have hl := h.length
    cases l' with
    | nil => exact absurd rfl h.ne.2
    | cons q2' qs' =>
      unfold matchDepth
      have : q'.isSameTag u nm cs = q.isSameTag u nm cs := by rw [e, shift_eq]; rfl
      rw [this, ih h, hl]

theorem matchDepth_le' {u : Uni} {cs : Bool} {nm : Option Str} {q : Node} {l : List Node} :
    matchDepth u cs nm q l ≤ l.length := by
  induction l generalizing q with
  | nil => simp [matchDepth]
  | cons q2 qs ih =>
    unfold matchDepth
    split
    · exact Nat.le_refl _
    · have := ih (q := q2)
      simp only [List.length_cons]; omega

/-! ### Transitions -/

/-- Where tokens come from and lead to. -/
structure LocFacts (s s' : Sc) : Prop where
  g1 : s'.state.inStart = true → s.state.inStart = true ∨ s'.tokenType = .StartTagOpen
  g2 : s.state.inStart = true → s'.state.inStart = true ∨ s'.tokenType = .StartTagClose ∨ s'.tokenType = .StartTagSelfClose
  g3 : s'.tokenType = .StartTagClose ∨ s'.tokenType = .StartTagSelfClose → s.state.inStart = true ∧ s'.state.inStart = false
  g4 : s'.tokenType = .StartTagOpen → s.state.inStart = false ∧ s'.state.inStart = true ∧ s'.state ≠ .AfterAttributeName ∧
    s'.state ≠ .BeforeAttributeValue
  g5 : s'.state.inEnd = true → s.state.inEnd = true ∨ s'.tokenType = .EndTagOpen
  g6 : s'.tokenType = .EndTagOpen → s.state.inStart = false ∧ s'.state.inEnd = true
  g7 : s'.tokenType = .EndTag ∨ s'.tokenType = .EndTagClose → s.state.inEnd = true

variable {c : Cfg}

theorem StepContent.locFacts {s s' a : Sc} (h : StepContent c a s') (ha : a.state = .WithinContent)
    (hs : s.state.inStart = false) : LocFacts s s' := by
  cases hst : s.state <;> rw [hst] at hs <;> first
    | (cases hs; done)
    | (cases h <;> constructor <;> simp [fin, adv, ha, hst, SS.inStart, SS.inEnd])

theorem StepTag.locFacts {s s' a : Sc} (h : StepTag c a s') (ha : a.state = .WithinTag)
    (hs : s.state.inStart = true) : LocFacts s s' := by
  cases h with
  | close s1 hp1 h =>
    have : (afterStartTag a).inStart = false ∧ (afterStartTag a).inEnd = false := by
      rcases afterStartTag_content a with h | h | h <;> rw [h] <;> decide
    constructor <;> simp [fin, adv, this, hs]
  | unknown s1 hp1 =>
    have es : s1.state = .WithinTag := by cases hp1 <;> exact ha
    have e1 : SS.WithinTag.inStart = true ∧ SS.WithinTag.inEnd = false := ⟨rfl, rfl⟩
    constructor <;> simp [fin, adv, es, hs, e1]
  | _ =>
    have e1 : SS.WithinTag.inStart = true ∧ SS.WithinTag.inEnd = false := ⟨rfl, rfl⟩
    have e2 : SS.WithinContent.inStart = false ∧ SS.WithinContent.inEnd = false := ⟨rfl, rfl⟩
    have e3 : SS.AfterAttributeName.inStart = true ∧ SS.AfterAttributeName.inEnd = false := ⟨rfl, rfl⟩
    constructor <;> simp [fin, adv, ha, hs, e1, e2, e3]

theorem Step.locFacts {s s' : Sc} (h : Step c s s') (hne : s'.tokenType ≠ .EOS) : LocFacts s s' := by
  cases h with
  | eos h => exact absurd rfl hne
  | content _ h hs hx => exact hx.locFacts hs (by rw [hs]; rfl)
  | endTag _ h hs hx => cases hx <;> constructor <;> simp [fin, adv, hs, SS.inStart, SS.inEnd]
  | tag _ h hs hx => exact hx.locFacts hs (by rw [hs]; rfl)
  | afterNameTag _ h hs hw h0 hx => exact hx.locFacts rfl (by rw [hs]; rfl)
  | valueTag _ h hs hw hb h0 h1 hx => exact hx.locFacts rfl (by rw [hs]; rfl)
  | script q st h hs hp hl hst =>
    rcases hst with ⟨e, _⟩ | ⟨e, _⟩ <;> constructor <;> simp [fin, e, hs, SS.inStart, SS.inEnd]
  | scriptContent _ h hs hl hx => exact hx.locFacts rfl (by rw [hs]; rfl)
  | styleContent _ h hs hb h0 hx => exact hx.locFacts rfl (by rw [hs]; rfl)
  | _ => rename_i hs _; constructor <;> simp_all [fin, adv, SS.inStart, SS.inEnd]

/-! ### One step -/

theorem inEnd_inStart {st : SS} (h : st.inEnd = true) : st.inStart = false := by cases st <;> first | rfl | cases h
theorem inStart_inEnd {st : SS} (h : st.inStart = true) : st.inEnd = false := by cases st <;> first | rfl | cases h

theorem PShift.idle {s s1 : Sc} {p p' : PState} (h : PShift A k s.state p p') (hf : LocFacts s s1) (hi : InfoFacts s s1)
    (h1 : s1.tokenType ≠ .StartTagOpen) (h2 : s1.tokenType ≠ .StartTagClose) (h3 : s1.tokenType ≠ .StartTagSelfClose)
    (h4 : s1.tokenType ≠ .EndTagOpen) (h5 : s1.tokenType ≠ .AttributeName) : PShift A k s1.state p p' where
  inn hs := h.inn ((hf.g1 hs).resolve_right h1)
  out hs := by
    refine h.out ?_
    cases h0 : s.state.inStart with
    | false => rfl
    | true =>
      rcases hf.g2 h0 with h6 | h6 | h6
      · rw [hs] at h6; cases h6
      · exact absurd h6 h2
      · exact absurd h6 h3
  pend hs := by
    rcases hi.f4 hs with h6 | ⟨_, h6⟩
    · exact absurd h6 h5
    · exact h.pend (.inl h6)
  ends hs := h.ends ((hf.g5 hs).resolve_right h4)

/-- Inside a start tag only the innermost node changes. -/
theorem PShift.inner {st : SS} {q q' : PState} (h : st.inStart = true) (h1 : SRel A k q.parents q'.parents)
    (h2 : ∃ e', q'.cur = { q.cur.shift k with stop := e' })
    (h3 : st = .AfterAttributeName ∨ st = .BeforeAttributeValue → q'.pending = q.pending) : PShift A k st q q' :=
  ⟨fun _ => ⟨h1, h2⟩, fun h0 => (by rw [h] at h0; cases h0), h3, fun h0 => (by rw [inStart_inEnd h] at h0; cases h0)⟩

/-- Outside tags. -/
theorem PShift.outer {st : SS} {q q' : PState} (h : st.inStart = false) (h0 : st.inEnd = false)
    (h1 : SRel A k (q.cur :: q.parents) (q'.cur :: q'.parents)) : PShift A k st q q' :=
  ⟨fun h2 => (by rw [h] at h2; cases h2), fun _ => h1, fun h2 => (by rcases h2 with rfl | rfl <;> cases h),
    fun h2 => (by rw [h0] at h2; cases h2)⟩

theorem parseStep_rel {c' : Cfg} {void : List Str} {s s1 s1' : Sc} {p p' : PState} (h : PShift A k s.state p p')
    (hf : LocFacts s s1) (hi : InfoFacts s s1) (ht : s1'.tok = s1.tok.shift k) (hu : c'.uni = c.uni)
    (hc : c'.caseSensitive = c.caseSensitive) (hx : isEndTT s1.tokenType = false → tokenText c' s1' = tokenText c s1) :
    PRes (PShift A k s1.state) (parseStep c void p s1) (parseStep c' void p' s1') := by
  have t1 : s1'.tokenType = s1.tokenType := congrArg Tok.type ht
  have t2 : s1'.tokenOffset = s1.tokenOffset + k := congrArg Tok.offset ht
  have t3 : s1'.tokenEnd = s1.tokenEnd + k := congrArg Tok.stop ht
  have t4 : s1'.tokenLength = s1.tokenLength := by
    have : s1'.pos = s1.pos + k := t3
    simp only [Sc.tokenLength, t2, this]; omega
  have idle := fun h1 h2 h3 h4 h5 => h.idle hf hi h1 h2 h3 h4 h5
  unfold parseStep
  rw [t1]
  cases htt : s1.tokenType
  case StartTagOpen =>
    obtain ⟨g1, g2, g3, g4⟩ := hf.g4 htt
    refine ⟨_, rfl, .inner g2 (h.out g1) ⟨c'.src.length, ?_⟩ (fun h => by rcases h with h | h <;> contradiction)⟩
    simp only [Node.new, shift_eq, t2]
    rfl
  case StartTag =>
    have g1 := hi.f1 (.inl htt)
    have g2 : s1.state.inStart = true := by rcases hf.g2 g1 with h | h | h <;> first | exact h | (rw [htt] at h; cases h)
    refine PRes.bindEq (hx (by rw [htt]; rfl)) fun t _ => ⟨_, rfl, ?_⟩
    obtain ⟨g3, e', g4⟩ := h.inn g1
    refine .inner g2 g3 ⟨e', ?_⟩ (fun h0 => ?_)
    · simp only [g4, shift_eq]
    · rcases hi.f4 h0 with h | ⟨h | h, _⟩ <;> (rw [htt] at h; cases h)
  case AttributeName =>
    have g1 := hi.f1 (.inr htt)
    have g2 : s1.state.inStart = true := by rcases hf.g2 g1 with h | h | h <;> first | exact h | (rw [htt] at h; cases h)
    refine PRes.bindEq (hx (by rw [htt]; rfl)) fun t _ => ⟨_, rfl, ?_⟩
    obtain ⟨g3, e', g4⟩ := h.inn g1
    refine .inner g2 g3 ⟨e', ?_⟩ (fun h0 => rfl)
    simp only [g4, shift_eq, shiftAttrs_insert, t2]
  case DelimiterAssign =>
    have g0 := hi.f2 htt
    have g1 : s.state.inStart = true := by rw [g0]; rfl
    have g2 : s1.state.inStart = true := by rcases hf.g2 g1 with h | h | h <;> first | exact h | (rw [htt] at h; cases h)
    have g5 := h.pend (.inl g0)
    obtain ⟨g3, e', g4⟩ := h.inn g1
    simp only [g5]
    cases hp : p.pending with
    | none =>
      exact ⟨_, rfl, .inner g2 g3 ⟨e', g4⟩ (fun _ => g5)⟩
    | some a =>
      have e1 : attrSetValue p'.cur.attributes a [] = (attrSetValue p.cur.attributes a []).map (shiftAttrs k) := by
        rw [g4, shift_eq]; exact shiftAttrs_set ..
      simp only [e1]
      cases attrSetValue p.cur.attributes a [] with
      | error e => rfl
      | ok m =>
        refine ⟨_, rfl, .inner g2 g3 ⟨e', ?_⟩ (fun _ => ?_)⟩
        · simp only [g4, shift_eq]
        · rfl
  case AttributeValue =>
    obtain ⟨g0, g2⟩ := hi.f3 htt
    have g1 : s.state.inStart = true := by rw [g0]; rfl
    have g2 : s1.state.inStart = true := by rw [g2]; rfl
    have g5 := h.pend (.inr g0)
    obtain ⟨g3, e', g4⟩ := h.inn g1
    have g6 : ¬ (s1.state = .AfterAttributeName ∨ s1.state = .BeforeAttributeValue) := by
      intro h0
      rcases hi.f4 h0 with h | ⟨h | h, _⟩ <;> (rw [htt] at h; cases h)
    refine PRes.bindEq (hx (by rw [htt]; rfl)) fun t _ => ?_
    simp only [g5]
    cases hp : p.pending with
    | none =>
      exact ⟨_, rfl, .inner g2 g3 ⟨e', g4⟩ (fun _ => g5)⟩
    | some a =>
      have e1 : attrSetValue p'.cur.attributes a t = (attrSetValue p.cur.attributes a t).map (shiftAttrs k) := by
        rw [g4, shift_eq]; exact shiftAttrs_set ..
      simp only [e1]
      cases attrSetValue p.cur.attributes a t with
      | error e => rfl
      | ok m =>
        refine ⟨_, rfl, .inner g2 g3 ⟨e', ?_⟩ (fun h0 => absurd h0 g6)⟩
        simp only [g4, shift_eq]
  case StartTagClose =>
    obtain ⟨g1, g2⟩ := hf.g3 (.inl htt)
    have g2' : s1.state.inEnd = false := by
      cases h0 : s1.state.inEnd with
      | false => rfl
      | true =>
        rcases hf.g5 h0 with h | h
        · rw [inEnd_inStart h] at g1; cases g1
        · rw [htt] at h; cases h
    obtain ⟨g3, e', g4⟩ := h.inn g1
    have e1 : p.parents.isEmpty = false := by
      cases hp : p.parents with
      | nil => exact absurd hp g3.ne.1
      | cons => rfl
    have e2 : p'.parents.isEmpty = false := by
      cases hp : p'.parents with
      | nil => exact absurd hp g3.ne.2
      | cons => rfl
    simp only [e1, e2, Bool.false_eq_true, if_false, t4]
    have e3 : p'.cur.tag = p.cur.tag := by rw [g4, shift_eq]
    refine PRes.ite Iff.rfl (fun _ => PRes.ite (by rw [e3]) (fun _ => ?_) (fun _ => ?_)) (fun _ => ?_)
    · refine PRes.mono (pop_stack ?_) (fun q q' hq => .outer g2 g2' hq)
      have := g3.cons (q := { p.cur with stop := s1.tokenEnd, startTagEnd := some s1.tokenEnd, closed := true })
      rw [shift_eq] at this
      simp only [g4, shift_eq, t3]
      exact this
    · refine ⟨_, rfl, .outer g2 g2' ?_⟩
      have := g3.cons (q := { p.cur with stop := s1.tokenEnd, startTagEnd := some s1.tokenEnd })
      rw [shift_eq] at this
      simp only [g4, shift_eq, t3]
      exact this
    · refine PRes.mono (pop_stack ?_) (fun q q' hq => .outer g2 g2' hq)
      have := g3.cons (q := { p.cur with stop := s1.tokenEnd })
      rw [shift_eq] at this
      simp only [g4, shift_eq, t3]
      exact this
  case StartTagSelfClose =>
    obtain ⟨g1, g2⟩ := hf.g3 (.inr htt)
    have g2' : s1.state.inEnd = false := by
      cases h0 : s1.state.inEnd with
      | false => rfl
      | true =>
        rcases hf.g5 h0 with h | h
        · rw [inEnd_inStart h] at g1; cases g1
        · rw [htt] at h; cases h
    obtain ⟨g3, e', g4⟩ := h.inn g1
    have e1 : p.parents.isEmpty = false := by
      cases hp : p.parents with
      | nil => exact absurd hp g3.ne.1
      | cons => rfl
    have e2 : p'.parents.isEmpty = false := by
      cases hp : p'.parents with
      | nil => exact absurd hp g3.ne.2
      | cons => rfl
    simp only [e1, e2, Bool.false_eq_true, if_false]
    refine PRes.mono (pop_stack ?_) (fun q q' hq => .outer g2 g2' hq)
    have := g3.cons (q := { p.cur with stop := s1.tokenEnd, startTagEnd := some s1.tokenEnd, closed := true })
    rw [shift_eq] at this
    simp only [g4, shift_eq, t3]
    exact this
  case EndTagOpen =>
    obtain ⟨g1, g2⟩ := hf.g6 htt
    refine ⟨_, rfl, ?_⟩
    refine ⟨fun h0 => (by rw [inEnd_inStart g2] at h0; cases h0), fun _ => h.out g1, fun h0 => ?_, fun _ => ⟨?_, rfl⟩⟩
    · rcases h0 with h0 | h0 <;> (rw [h0] at g2; cases g2)
    · simp only [t2, Option.map_some]
  case EndTag =>
    have g1 := hf.g7 (.inl htt)
    refine PRes.bindEq (hx (by rw [htt]; rfl)) fun t _ => ⟨_, rfl, ?_⟩
    have hid := idle (by rw [htt]; decide) (by rw [htt]; decide) (by rw [htt]; decide) (by rw [htt]; decide) (by rw [htt]; decide)
    refine ⟨hid.inn, hid.out, hid.pend, fun h0 => ⟨(hid.ends h0).1, ?_⟩⟩
    simp only [hu, hc]
  case EndTagClose =>
    have g1 := hf.g7 (.inr htt)
    have g0 := inEnd_inStart g1
    obtain ⟨k1, k2⟩ := h.ends g1
    have hst := h.out g0
    have hid := idle (by rw [htt]; decide) (by rw [htt]; decide) (by rw [htt]; decide) (by rw [htt]; decide) (by rw [htt]; decide)
    have hl : p'.parents.length = p.parents.length := by simpa using hst.length
    simp only [hu, hc, k2, matchDepth_rel hst]
    refine PRes.ite Iff.rfl (fun hd => ?_) (fun _ => ⟨_, rfl, hid⟩)
    rw [hl]
    have hle : matchDepth c.uni c.caseSensitive p.endTagName p.cur p.parents ≤ p.parents.length := matchDepth_le'
    refine PRes.bind (popUnclosed_rel ⟨hst, k1, k2⟩ (by omega)) fun q q' hq => ?_
    have hne : q.parents ≠ [] := by
      intro e
      have := hq.2
      rw [e, List.length_nil] at this
      omega
    obtain ⟨e1, e2⟩ := hq.1.stack.uncons hne
    have hpop : ORel A k { q with cur := { q.cur with closed := true, endTagStart := q.endTagStart, stop := s1.tokenEnd } }
        { q' with cur := { q'.cur with closed := true, endTagStart := q'.endTagStart, stop := s1'.tokenEnd } } := by
      refine ⟨?_, hq.1.start, hq.1.name⟩
      have := e2.cons (q := { q.cur with closed := true, endTagStart := q.endTagStart, stop := s1.tokenEnd })
      rw [shift_eq] at this
      simp only [e1, shift_eq, t3, hq.1.start]
      exact this
    refine PRes.mono (pop_rel hpop) (fun r r' hr => ?_)
    have g2 : s1.state.inStart = false := by
      cases h0 : s1.state.inStart with
      | false => rfl
      | true =>
        rcases hf.g1 h0 with h | h
        · rw [g0] at h; cases h
        · rw [htt] at h; cases h
    refine ⟨fun h0 => (by rw [g2] at h0; cases h0), fun _ => hr.stack, fun h0 => ?_, fun _ => ⟨hr.start, hr.name⟩⟩
    rcases h0 with h0 | h0 <;> (rw [h0] at g2; cases g2)
  all_goals exact ⟨_, rfl, idle (by rw [htt]; decide) (by rw [htt]; decide) (by rw [htt]; decide) (by rw [htt]; decide) (by rw [htt]; decide)⟩

/-! ### Whole texts -/

variable {void : List Str}

theorem tok_shift_zero (t : Tok) : t.shift 0 = t := rfl

theorem tokenText_behind {pre : Str} {s s' : Sc} (h : s'.tok = s.tok.shift pre.length) :
    tokenText (c.behind pre) s' = tokenText c s := by
  have t2 : s'.tokenOffset = s.tokenOffset + pre.length := congrArg Tok.offset h
  have t3 : s'.pos = s.pos + pre.length := congrArg Tok.stop h
  unfold tokenText
  rw [t2, t3]
  exact shift_slice _ _ _

/-- Behind a prefix the parser builds the same nodes, moved. -/
theorem parseLoop_shift {pre : Str} {f : Nat} {s s' : Sc} {p p' : PState} (he : Eqv (c.behind pre) s' (s.shift pre.length))
    (h : PShift A pre.length s.state p p') :
    PRes (fun q q' => ∃ st, PShift A pre.length st q q') (parseLoop c void f p s) (parseLoop (c.behind pre) void f p' s') := by
  induction f generalizing s s' p p' with
  | zero => rfl
  | succ f ih =>
    unfold parseLoop
    have hsc : scan (c.behind pre) (s.shift pre.length) = (scan c s).map (Sc.shift pre.length) := scan_shift
    have hr := internalScan_rel he
    rw [← scan_eq_internalScan, ← scan_eq_internalScan, hsc] at hr
    cases h1 : scan c s with
    | error e =>
      rw [h1] at hr
      cases h2 : scan (c.behind pre) s' with
      | error e' => rw [h2] at hr; cases hr; rfl
      | ok s2 => rw [h2] at hr; cases hr
    | ok s1 =>
      rw [h1] at hr
      cases h2 : scan (c.behind pre) s' with
      | error e' => rw [h2] at hr; cases hr
      | ok s2 =>
        rw [h2] at hr
        cases hr with
        | ok ht hh =>
          change PRes _ (if s1.tokenType = .EOS then _ else _) (if s2.tokenType = .EOS then _ else _)
          have htt : s2.tokenType = s1.tokenType := congrArg Tok.type ht
          refine PRes.ite (by rw [htt]) (fun _ => ⟨_, rfl, _, h⟩) (fun hne => ?_)
          have hst := scan_step h1
          have hstep := parseStep_rel (c := c) (c' := c.behind pre) (void := void) h (hst.locFacts hne) (hst.infoFacts hne)
            (s1' := s2) ht rfl rfl (fun _ => tokenText_behind ht)
          refine PRes.bind hstep fun q q' hq => ih ⟨congrArg Tok.state ht, congrArg Tok.stop ht, hh⟩ hq

theorem finish_rel {len : Nat} {q q' : Node} {l l' : List Node} (h : SRel A k (q :: l) (q' :: l')) :
    (finishAll (len + k) q' l').children = A ++ (finishAll len q l).children.map (Node.shift k) := by
  induction l generalizing q q' l' with
  | nil =>
    obtain ⟨r', e, h⟩ := h
    cases e
    exact h
  | cons q2 qs ih =>
    obtain ⟨e, h⟩ := h.uncons (by simp)
    cases l' with
    | nil => exact absurd rfl h.ne.2
    | cons q2' qs' =>
      unfold finishAll
      apply ih
      have := h.add (n := { q with stop := len, closed := false })
      rw [e]
      rw [shift_eq] at this ⊢
      exact this

theorem PShift.finish {st : SS} {len : Nat} {p p' : PState} (h : PShift A k st p p') :
    (finishAll (len + k) p'.cur p'.parents).children = A ++ (finishAll len p.cur p.parents).children.map (Node.shift k) := by
  cases hs : st.inStart with
  | false => exact finish_rel (h.out hs)
  | true =>
    obtain ⟨h1, e', h2⟩ := h.inn hs
    obtain ⟨cur, ps, es, en, pe⟩ := p
    obtain ⟨cur', ps', es', en', pe'⟩ := p'
    simp only at h1 h2 ⊢
    cases ps with
    | nil => exact h1.elim
    | cons q qs =>
      cases ps' with
      | nil => exact absurd rfl h1.ne.2
      | cons q' qs' =>
        unfold finishAll
        apply finish_rel
        have := h1.add (n := { cur with stop := len, closed := false })
        rw [h2]
        rw [shift_eq] at this ⊢
        exact this

/-- If an element is still open the last root is not closed. -/
theorem finishAll_open {len : Nat} {q : Node} {l : List Node} (h : l ≠ []) :
    ∃ i n, (finishAll len q l).children = i ++ [n] ∧ n.closed = false := by
  induction l generalizing q with
  | nil => exact absurd rfl h
  | cons q2 qs ih =>
    unfold finishAll
    cases qs with
    | nil => exact ⟨q2.children, _, rfl, rfl⟩
    | cons q3 qs => exact ih (by simp)

theorem parseLoop_fuel {f : Nat} {p : PState} {s : Sc} (hf : mu c s < f) (g : Nat) :
    parseLoop c void (f + g) p s = parseLoop c void f p s := by
  induction f generalizing s p with
  | zero => omega
  | succ f ih =>
    have e : f + 1 + g = (f + g) + 1 := by omega
    rw [e]
    unfold parseLoop
    cases h1 : scan c s with
    | error e => rfl
    | ok s1 =>
      simp only [bind, Except.bind]
      split
      · rfl
      · rename_i hne
        have := (scan_step h1).mu_lt hne
        cases parseStep c void p s1 with
        | error e => rfl
        | ok q => exact ih (by omega)

theorem parseLoop_prefix {x : Str} {c' : Cfg} (G : Agree x c c') {s s2 : Sc} {ts i : List Tok} {t : Tok} (hr : Run c s ts s2)
    (hs : s.pos ≤ x.length) (hts : ts = i ++ [t]) (h1 : t.stop = x.length + 1) (h2 : isEndTT t.type = true)
    (h3 : t.offset < t.stop) {f f' : Nat} {p p' r : PState} (h : PShift [] 0 s.state p p')
    (hp : parseLoop c void (ts.length + f) p s = .ok r) :
    ∃ q q', PShift [] 0 s2.state q q' ∧ parseLoop c void f q s2 = .ok r ∧
      parseLoop c' void (ts.length + f') p' s = parseLoop c' void f' q' s2 ∧ (PInv c void p s → PInv c void q s2) := by
  induction hr generalizing i p p' with
  | nil s => simp at hts
  | @cons s s1 s2 ts hsc hne hr ih =>
    have hst := scan_step hsc
    have hE : Ends x s1 ∧ (isEndTT s1.tokenType = false → s1.pos ≤ x.length) := by
      cases i with
      | nil =>
        obtain ⟨e1, e2⟩ := List.cons.inj hts
        have k1 : s1.pos = x.length + 1 := by rw [← h1, ← e1]; rfl
        have k2 : isEndTT s1.tokenType = true := by rw [← h2, ← e1]; rfl
        exact ⟨.inr ⟨k1, k2⟩, fun h0 => by rw [k2] at h0; cases h0⟩
      | cons t0 i =>
        obtain ⟨e1, e2⟩ := List.cons.inj hts
        have hm : t ∈ ts := by rw [e2]; simp
        have := (hr.ge hm).1
        have hs1 : s1.pos ≤ x.length := by omega
        exact ⟨.inl hs1, fun _ => hs1⟩
    have hsc' := scan_keeps G hs s1 hsc hE.1
    have hstep := parseStep_rel (c := c) (c' := c') (void := void) (s1' := s1) h (hst.locFacts hne) (hst.infoFacts hne)
      (tok_shift_zero _).symm G.uni G.case (fun h0 => G.slice (hE.2 h0))
    rw [List.length_cons, show ts.length + 1 + f = (ts.length + f) + 1 by omega, parseLoop, hsc] at hp
    change (if s1.tokenType = .EOS then _ else _) = _ at hp
    rw [if_neg hne] at hp
    obtain ⟨q, hq, hp⟩ := bind_ok hp
    rw [hq] at hstep
    obtain ⟨q', hq', hrel⟩ := hstep
    have hinv : PInv c void p s → PInv c void q s1 := fun hi => by
      obtain ⟨p2, h3, h4⟩ := hi.step hst hne (fun hn => by
        obtain ⟨t, ht⟩ := parseStep_text hq hn
        exact tokenText_eq ht hst.offset_eq)
      rw [hq] at h3
      cases h3
      exact h4
    have hcont : parseLoop c' void ((s1.tok :: ts).length + f') p' s = parseLoop c' void (ts.length + f') q' s1 := by
      rw [List.length_cons, show ts.length + 1 + f' = (ts.length + f') + 1 by omega, parseLoop, hsc']
      change (if s1.tokenType = .EOS then _ else _) = _
      rw [if_neg hne, hq']
      rfl
    rw [hcont]
    cases i with
    | nil =>
      obtain ⟨e1, e2⟩ := List.cons.inj hts
      subst e2
      cases hr
      simp only [List.length_nil, Nat.zero_add] at hp ⊢
      exact ⟨q, q', hrel, hp, rfl, hinv⟩
    | cons t0 i =>
      obtain ⟨e1, e2⟩ := List.cons.inj hts
      have hm : t ∈ ts := by rw [e2]; simp
      have := (hr.ge hm).1
      obtain ⟨r1, r2, r3, r4, r5, r6⟩ := ih (by omega) e2 hrel hp
      exact ⟨r1, r2, r3, r4, r5, fun hi => r6 (hinv hi)⟩

theorem parse_append {u : Uni} {cs : Bool} {x : Str} (hx : Whole x) (b : Str) {i : List Tok} {t : Tok} {na : List Node}
    (hp : parse u cs void (x ++ [62]) = .ok na)
    (h : tokens (parserCfg u cs (x ++ [62])) (.new 0 .WithinContent) = .ok (i ++ [t]))
    (h1 : t.stop = x.length + 1) (h2 : isEndTT t.type = true) (h3 : t.offset < t.stop) (h4 : t.state = .WithinContent)
    (h5 : ∀ n, na.getLast? = some n → n.closed = true) :
    parse u cs void (x ++ [62] ++ b) = (parse u cs void b).map (fun nb => na ++ nb.map (Node.shift (x.length + 1))) := by
  have hla : (x ++ [62]).length = x.length + 1 := by simp
  obtain ⟨s2, hr, hlen⟩ := tokens_run h
  have G : Agree x (parserCfg u cs (x ++ [62])) (parserCfg u cs (x ++ [62] ++ b)) :=
    agree_append (c := parserCfg u cs (x ++ [62])) hx rfl b
  have hl := hr.last
  have hm := hr.length_mu
  have hm2 : mu (parserCfg u cs (x ++ [62])) (.new 0 .WithinContent) + 1 = 2 * (x ++ [62]).length := by
    simp only [mu, Sc.new, parserCfg, if_true, hla]; omega
  have hst : s2.state = .WithinContent := by rw [← h4, ← hl]; rfl
  have hpos : s2.pos = (x ++ [62]).length := by
    have : t.stop = s2.pos := by rw [← hl]; rfl
    omega
  unfold parse at hp ⊢
  dsimp only at hp ⊢
  obtain ⟨r, hr1, hp⟩ := bind_ok hp
  have hinit : PShift [] 0 (Sc.new 0 .WithinContent).state (PState.init (x ++ [62]).length) (PState.init (x ++ [62] ++ b).length) :=
    .outer rfl rfl ⟨_, rfl, rfl⟩
  obtain ⟨f, hf⟩ : ∃ f, 2 * (x ++ [62]).length + 1 = (i ++ [t]).length + (f + 1) :=
    ⟨2 * (x ++ [62]).length - (i ++ [t]).length, by omega⟩
  obtain ⟨f', hf', hf2⟩ : ∃ f', 2 * (x ++ [62] ++ b).length + 1 = (i ++ [t]).length + f' ∧ 2 * b.length + 1 ≤ f' :=
    ⟨2 * (x ++ [62] ++ b).length + 1 - (i ++ [t]).length, by
      rw [List.length_append (as := x ++ [62])]; omega, by rw [List.length_append (as := x ++ [62])]; omega⟩
  rw [hf] at hr1
  obtain ⟨q, q', hq, hq1, hq2, _⟩ := parseLoop_prefix (f' := f') G hr (Nat.zero_le _) rfl h1 h2 h3 hinit hr1
  rw [hf', hq2]
  have hrq : r = q := by
    unfold parseLoop at hq1
    obtain ⟨s3, hs3, hq1⟩ := bind_ok hq1
    rw [if_pos ((scan_step hs3).eos_iff.2 hlen)] at hq1
    exact (Except.ok.inj hq1).symm
  subst hrq
  have hna : (finishAll (x ++ [62]).length r.cur r.parents).children = na := Except.ok.inj hp
  have hps : r.parents = [] := by
    cases hps : r.parents with
    | nil => rfl
    | cons a l =>
      obtain ⟨i, n, e, hn⟩ := finishAll_open (len := (x ++ [62]).length) (q := r.cur) (l := r.parents) (by rw [hps]; simp)
      rw [hna] at e
      have := h5 n (by rw [e]; simp)
      rw [hn] at this
      cases this
  have hsr := hq.out (by rw [hst]; rfl)
  rw [hps] at hsr hna
  obtain ⟨r', e, hch⟩ := hsr
  have e1 : q'.cur = r' := (List.cons.inj e).1
  have e2 : q'.parents = [] := (List.cons.inj e).2
  have hchild : q'.cur.children = na := by
    rw [e1, hch, List.nil_append, map_shift_zero]
    exact hna
  have hb : PShift na (x ++ [62]).length (Sc.new 0 .WithinContent).state (PState.init b.length) q' := by
    refine .outer rfl rfl ?_
    rw [e2]
    refine ⟨_, rfl, ?_⟩
    rw [hchild]
    simp [PState.init, Node.new]
  have hsh := parseLoop_shift (c := parserCfg u cs b) (void := void) (f := f')
    (eqv_new (c := parserCfg u cs b) (x ++ [62]) (st := .WithinContent) hst hpos rfl) hb
  have hfuel : parseLoop (parserCfg u cs b) void f' (PState.init b.length) (.new 0 .WithinContent) =
      parseLoop (parserCfg u cs b) void (2 * b.length + 1) (PState.init b.length) (.new 0 .WithinContent) := by
    rw [show f' = 2 * b.length + 1 + (f' - (2 * b.length + 1)) by omega]
    apply parseLoop_fuel
    have := mu_le (parserCfg u cs b) (.new 0 .WithinContent)
    simp only [Sc.new, parserCfg, Nat.sub_zero] at this ⊢
    omega
  rw [hfuel] at hsh
  change (parseLoop ((parserCfg u cs b).behind (x ++ [62])) void f' q' s2 >>= _) = _
  revert hsh
  cases parseLoop (parserCfg u cs b) void (2 * b.length + 1) (PState.init b.length) (.new 0 .WithinContent) with
  | error e => intro hsh; rw [show parseLoop ((parserCfg u cs b).behind (x ++ [62])) void f' q' s2 = _ from hsh]; rfl
  | ok z =>
    intro hsh
    obtain ⟨z', hz, st, hz2⟩ := hsh
    rw [hz]
    have := hz2.finish (len := b.length)
    rw [Nat.add_comm b.length, ← List.length_append] at this
    change Except.ok _ = Except.ok _
    rw [this, hla]

/-! ### The bracket -/

theorem prefix_drop {l r : Str} (h : l.isPrefixOf r = true) : ∃ z, r = l ++ z := by
  obtain ⟨z, e⟩ := List.isPrefixOf_iff_prefix.1 h
  exact ⟨z, e.symm⟩

theorem get_rest {s : Sc} (i : Nat) : (rest c s)[i]? = c.src[s.pos + i]? := by
  rw [rest, List.getElem?_drop]

theorem StepTag.gt {s s' a : Sc} (h : StepTag c a s') (hp : s.pos = a.pos) (he : isEndTT s'.tokenType = true) (hl : s.pos < s'.pos) :
    c.src[s'.pos - 1]? = some 62 := by
  cases h with
  | ws h => cases he
  | attrName => cases he
  | unknown => cases he
  | selfClose s1 hp1 h =>
    have e := hp1.pos_eq
    obtain ⟨z, hz⟩ := prefix_drop h
    have := get_rest (c := c) (s := a) 1
    rw [hz] at this
    simp only [fin, adv, e]
    rw [show a.pos + 2 - 1 = a.pos + 1 by omega, ← this]
    rfl
  | close s1 hp1 h =>
    have e := hp1.pos_eq
    have := get_rest (c := c) (s := a) 0
    rw [← List.head?_eq_getElem?, h] at this
    simp only [fin, adv, e, Nat.add_sub_cancel]
    exact this.symm
  | pseudo s1 hp1 he h =>
    have e := hp1.pos_eq
    simp only [fin, e] at hl
    omega

/-- A token that ends something ends with `>` if it is not empty. -/
theorem Step.gt {s s' : Sc} (h : Step c s s') (he : isEndTT s'.tokenType = true) (hl : s.pos < s'.pos) :
    c.src[s'.pos - 1]? = some 62 := by
  have h0 : (rest c s).head? = some 62 → c.src[s.pos]? = some 62 := fun h => by
    have := get_rest (c := c) (s := s) 0
    rw [← List.head?_eq_getElem?, h] at this
    exact this.symm
  cases h with
  | tag _ h hs h' => exact h'.gt rfl he hl
  | afterNameTag _ h hs hw h0 h' => exact h'.gt rfl he hl
  | valueTag _ h hs hw hb h0 h1 h' => exact h'.gt rfl he hl
  | content _ h hs h' => cases h' <;> cases he
  | scriptContent _ h hs hl h' => cases h' <;> cases he
  | styleContent _ h hs hb h0 h' => cases h' <;> cases he
  | endTag _ h hs h' =>
    cases h' with
    | ws => cases he
    | unknown => cases he
    | close h => simp only [fin, adv, Nat.add_sub_cancel]; exact h0 h
    | pseudo => simp only [fin] at hl; omega
  | commentEnd h hs hx =>
    obtain ⟨z, hz⟩ := prefix_drop hx
    have := get_rest (c := c) (s := s) 2
    rw [hz] at this
    simp only [fin, adv]
    rw [show s.pos + 3 - 1 = s.pos + 2 by omega, ← this]
    rfl
  | doctypeEnd h hs hx => simp only [fin, adv, Nat.add_sub_cancel]; exact h0 hx
  | endTagImmediate h hs hb hn hw hx => simp only [fin, adv, Nat.add_sub_cancel]; exact h0 hx
  | startTagImmediate h hs hb hn hw hx => simp only [fin, adv, Nat.add_sub_cancel]; exact h0 hx
  | _ => cases he

theorem EndsBracket.split {o : Nat} {st : SS} {i : List Tok} {t : Tok} (h : EndsBracket c o st i t) :
    ∃ x, c.src = x ++ [62] ∧ Whole x ∧ o ≤ x.length ∧ t.stop = x.length + 1 := by
  obtain ⟨s2, hr, hlen⟩ := tokens_run h.toks
  obtain ⟨s1, hr1, hr2⟩ := hr.split
  have hl := hr.last
  cases hr2 with
  | cons hsc hne hr3 =>
    cases hr3
    have hst := scan_step hsc
    have hk : isEndTT s2.tokenType = true := h.kind
    have hn : s2.tokenOffset < s2.pos := h.nonempty
    rw [hst.offset_eq] at hn
    have hg := hst.gt hk hn
    have hle := (List.getElem?_eq_some_iff.1 hg).1
    have hpos : s2.pos = c.src.length := by omega
    have ho := hr1.pos_le
    simp only [Sc.new] at ho
    rw [hpos] at hg
    have hx : c.src = c.src.take (c.src.length - 1) ++ [62] := by
      have h1 := List.take_append_drop (c.src.length - 1) c.src
      have h2 : c.src.drop (c.src.length - 1) = [62] := by
        obtain ⟨hlt, hv⟩ := List.getElem?_eq_some_iff.1 hg
        rw [List.drop_eq_getElem_cons hlt, hv, List.drop_of_length_le (by omega)]
      rw [h2] at h1
      exact h1.symm
    have hxl : (c.src.take (c.src.length - 1)).length = c.src.length - 1 := by simp
    refine ⟨_, hx, ?_, by omega, ?_⟩
    · obtain ⟨cps, hu⟩ := h.utf8
      rw [hx] at hu
      exact whole_init hu
    · change s2.pos = _
      omega

end Html
