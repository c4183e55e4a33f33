import Verif.Proof.Shift
import Verif.Proof.Pseudo

/-! # What follows a `>` does not change the tokens in front of it -/

namespace Html

/-- The texts of `c` and `c'` agree up to a `>` behind `x`, and the settings are the same. -/
structure Agree (x : Str) (c c' : Cfg) : Prop where
  left : ∃ y, c.src = x ++ 62 :: y
  right : ∃ y, c'.src = x ++ 62 :: y
  uni : c'.uni = c.uni
  emit : c'.emitPseudo = c.emitPseudo
  case : c'.caseSensitive = c.caseSensitive
  whole : Whole x

/-- The token ends in front of the `>`, or with it. -/
def Ends (x : Str) (s : Sc) : Prop := s.pos ≤ x.length ∨ s.pos = x.length + 1 ∧ isEndTT s.tokenType = true

/-- The second scan gives the same result if the first one ends early enough. -/
def Keeps (x : Str) (a a' : R Sc) : Prop := ∀ s', a = .ok s' → Ends x s' → a' = .ok s'

variable {x : Str} {c c' : Cfg} {s : Sc}

theorem Keeps.ite {p p' : Prop} [Decidable p] [Decidable p'] (hp : p ↔ p') {a a' b b' : R Sc}
    (ha : p → Keeps x a a') (hb : ¬ p → Keeps x b b') : Keeps x (if p then a else b) (if p' then a' else b') := by
  by_cases h : p
  · rw [if_pos h, if_pos (hp.1 h)]; exact ha h
  · rw [if_neg h, if_neg (mt hp.2 h)]; exact hb h

theorem Keeps.refl {a : R Sc} : Keeps x a a := fun _ h _ => h

theorem Keeps.bind {α : Type} {m m' : R α} {f f' : α → R Sc} (h : ∀ a, m = .ok a → ∃ a', m' = .ok a' ∧ Keeps x (f a) (f' a')) :
    Keeps x (m >>= f) (m' >>= f') := by
  intro s' hs he
  cases m with
  | error e => cases hs
  | ok a =>
    obtain ⟨a', h1, h2⟩ := h a rfl
    subst h1
    exact h2 s' hs he

/-- The first result ends too late. -/
theorem Keeps.late {a a' : R Sc} (h : ∀ s', a = .ok s' → x.length < s'.pos ∧ isEndTT s'.tokenType = false) :
    Keeps x a a' := by
  intro s' hs he
  obtain ⟨h1, h2⟩ := h s' hs
  rcases he with he | ⟨_, he⟩
  · omega
  · rw [h2] at he; cases he

theorem whole_drop {x : Str} (h : Whole x) (n : Nat) : Whole (x.drop n) := by
  induction n generalizing x with
  | zero => exact h
  | succ n ih =>
    cases x with
    | nil => exact h
    | cons b t => exact ih h.2

theorem Agree.rest (A : Agree x c c') (hs : s.pos ≤ x.length) :
    ∃ r y y', Whole r ∧ rest c s = r ++ 62 :: y ∧ rest c' s = r ++ 62 :: y' ∧ s.pos + r.length = x.length := by
  obtain ⟨y, hy⟩ := A.left
  obtain ⟨y', hy'⟩ := A.right
  refine ⟨x.drop s.pos, y, y', whole_drop A.whole _, ?_, ?_, by rw [List.length_drop]; omega⟩
  · rw [Html.rest, hy, List.drop_append_of_le_length hs]
  · rw [Html.rest, hy', List.drop_append_of_le_length hs]

theorem Agree.get (A : Agree x c c') {i : Nat} (hi : i ≤ x.length) : c'.src[i]? = c.src[i]? := by
  obtain ⟨y, hy⟩ := A.left
  obtain ⟨y', hy'⟩ := A.right
  rw [hy, hy']
  by_cases h : i < x.length
  · rw [List.getElem?_append_left h, List.getElem?_append_left h]
  · have : i = x.length := by omega
    subst this
    simp

theorem Agree.lt (A : Agree x c c') : x.length < c.src.length ∧ x.length < c'.src.length := by
  obtain ⟨y, hy⟩ := A.left
  obtain ⟨y', hy'⟩ := A.right
  rw [hy, hy']; simp

theorem Agree.last (A : Agree x c c') : c.src[x.length]? = some 62 := by
  obtain ⟨y, hy⟩ := A.left
  rw [hy]; simp

theorem Agree.peek (A : Agree x c c') (hs : s.pos ≤ x.length) : peek c' s = peek c s := A.get hs

theorem Agree.peek_lt (A : Agree x c c') (hs : s.pos ≤ x.length) (h : Html.peek c s ≠ some 62) : s.pos < x.length := by
  rcases Nat.lt_or_ge s.pos x.length with h1 | h1
  · exact h1
  · have : s.pos = x.length := by omega
    unfold Html.peek at h
    rw [this] at h
    exact absurd A.last h

theorem Agree.eos (A : Agree x c c') (hs : s.pos ≤ x.length) : eos c s = false ∧ eos c' s = false := by
  have := A.lt
  simp only [Html.eos, decide_eq_false_iff_not]; omega

theorem Agree.boundary (A : Agree x c c') {i : Nat} (hi : i ≤ x.length) : isBoundary c'.src i = isBoundary c.src i := by
  have := A.lt
  unfold isBoundary
  rw [A.get hi, if_neg (by omega), if_neg (by omega)]

theorem Agree.slice (A : Agree x c c') {a b : Nat} (hb : b ≤ x.length) : sliceStr c'.src a b = sliceStr c.src a b := by
  have hl := A.lt
  unfold sliceStr
  by_cases hab : a ≤ b
  · rw [A.boundary hb, A.boundary (Nat.le_trans hab hb)]
    have e : c'.src.take b = c.src.take b := by
      obtain ⟨y, hy⟩ := A.left
      obtain ⟨y', hy'⟩ := A.right
      rw [hy, hy', List.take_append_of_le_length hb, List.take_append_of_le_length hb]
    rw [e, decide_eq_true (show b ≤ c'.src.length by omega), decide_eq_true (show b ≤ c.src.length by omega)]
  · simp [hab]

theorem Agree.sliceTo (A : Agree x c c') {i : Nat} {r : Str} (hs : i ≤ x.length)
    (h : sliceStr c.src i c.src.length = .ok r) :
    r = c.src.drop i ∧ sliceStr c'.src i c'.src.length = .ok (c'.src.drop i) := by
  have hl := A.lt
  have e : isBoundary c.src i = true := by
    unfold sliceStr at h
    cases hb : isBoundary c.src i with
    | true => rfl
    | false => simp [hb] at h
  have e2 : ∀ z : Str, isBoundary z z.length = true := fun z => by simp [isBoundary]
  constructor
  · unfold sliceStr at h
    rw [e, e2, if_pos (by simp; omega)] at h
    cases h
    rw [List.take_length]
  · unfold sliceStr
    rw [A.boundary hs, e, e2, if_pos (by simp; omega), List.take_length]

theorem Agree.sliceFrom (A : Agree x c c') {r : Str} (hs : s.pos ≤ x.length) (h : sliceFrom c s = .ok r) :
    r = Html.rest c s ∧ Html.sliceFrom c' s = .ok (Html.rest c' s) := A.sliceTo hs h

/-! ### Literals -/

theorem lit_local {l r : Str} (h : 62 ∉ l.dropLast) (y y' : Str) :
    l.isPrefixOf (r ++ 62 :: y) = l.isPrefixOf (r ++ 62 :: y') := by
  induction l generalizing r with
  | nil => simp
  | cons a l ih =>
    cases r with
    | nil =>
      cases l with
      | nil => simp [List.isPrefixOf]
      | cons b l =>
        have : a ≠ 62 := by
          intro e
          apply h
          rw [e]
          simp
        simp only [List.nil_append, List.isPrefixOf, beq_eq_false_iff_ne.2 this, Bool.false_and]
    | cons b r =>
      have h2 : 62 ∉ l.dropLast := by
        intro hm
        apply h
        cases l with
        | nil => cases hm
        | cons d l => simp only [List.dropLast_cons_cons, List.mem_cons]; exact .inr hm
      simp only [List.cons_append, List.isPrefixOf, ih h2]

theorem lit_inside {l r y : Str} (h : 62 ∉ l) (hp : l.isPrefixOf (r ++ 62 :: y) = true) : l.length ≤ r.length := by
  induction l generalizing r with
  | nil => simp
  | cons a l ih =>
    simp only [List.mem_cons, not_or] at h
    cases r with
    | nil =>
      simp only [List.nil_append, List.isPrefixOf, Bool.and_eq_true, beq_iff_eq] at hp
      exact absurd hp.1.symm h.1
    | cons b r =>
      simp only [List.cons_append, List.isPrefixOf, Bool.and_eq_true] at hp
      have := ih h.2 hp.2
      simp only [List.length_cons]; omega

theorem untilLit_local {l r y : Str} (h : 62 ∉ l.dropLast) (hn : untilLit l (r ++ 62 :: y) ≤ r.length) (y' : Str) :
    untilLit l (r ++ 62 :: y') = untilLit l (r ++ 62 :: y) := by
  induction r with
  | nil =>
    simp only [List.nil_append, untilLit, List.length_nil] at hn ⊢
    have e := lit_local (r := []) h y y'
    simp only [List.nil_append] at e
    rw [← e]
    split at hn
    · rename_i h1; rw [if_pos h1, if_pos h1]
    · omega
  | cons b r ih =>
    have e := lit_local (r := b :: r) h y y'
    simp only [List.cons_append, untilLit, List.length_cons] at hn ⊢ e
    rw [← e]
    split at hn
    · rename_i h1; rw [if_pos h1, if_pos h1]
    · rename_i h1
      rw [if_neg h1, if_neg h1, ih (by omega)]

theorem runLen_le_close {q : Nat → Bool} (hq : q 62 = false) (r y : Str) : runLen q (r ++ 62 :: y) ≤ r.length := by
  induction r with
  | nil => simp [runLen, isCont, codePoint, hq]
  | cons b r ih =>
    simp only [List.cons_append, runLen, List.length_cons]
    split
    · omega
    · split <;> omega

theorem firstRunLen_le_close {p q : Nat → Bool} (hp : p 62 = false) (hq : q 62 = false) (r y : Str) :
    firstRunLen p q (r ++ 62 :: y) ≤ r.length := by
  cases r with
  | nil => simp [firstRunLen, codePoint, hp]
  | cons b r =>
    have := runLen_le_close hq r y
    simp only [List.cons_append, firstRunLen, List.length_cons]
    split <;> omega

theorem untilByte_le_close (r y : Str) : untilByte 62 (r ++ 62 :: y) ≤ r.length := by
  induction r with
  | nil => simp [untilByte, Nat.add_comm]
  | cons b r ih =>
    simp only [List.cons_append, untilByte, List.length_cons]
    split <;> omega

/-! ### The arms -/

theorem armComment_keeps (A : Agree x c c') (hs : s.pos ≤ x.length) {o : Nat} :
    Keeps x (armComment c s o) (armComment c' s o) := by
  obtain ⟨r, y, y', _, h1, h2, h3⟩ := A.rest hs
  unfold armComment
  rw [h1, h2]
  refine Keeps.ite (by rw [lit_local (by decide) y y']) (fun _ => Keeps.refl) (fun _ => ?_)
  rcases Nat.lt_or_ge r.length (untilLit b!"-->" (r ++ 62 :: y)) with h | h
  · apply Keeps.late
    intro s' he
    cases he
    refine ⟨?_, rfl⟩
    simp only [fin, adv]; omega
  · rw [untilLit_local (by decide) h y']
    exact Keeps.refl

theorem armDoctype_keeps (A : Agree x c c') (hs : s.pos ≤ x.length) {o : Nat} :
    Keeps x (armDoctype c s o) (armDoctype c' s o) := by
  obtain ⟨r, y, y', _, h1, h2, h3⟩ := A.rest hs
  unfold armDoctype
  rw [h1, h2, A.peek hs, untilByte_local r y y']
  exact Keeps.refl

theorem isDoctype_local (r y y' : Str) : isDoctype (r ++ 62 :: y) = isDoctype (r ++ 62 :: y') := by
  unfold isDoctype
  rw [List.map_append, List.map_append]
  exact lit_local (by decide) _ _

theorem armContent_keeps (A : Agree x c c') (hs : s.pos ≤ x.length) {o : Nat} :
    Keeps x (armContent c s o) (armContent c' s o) := by
  obtain ⟨r, y, y', _, h1, h2, h3⟩ := A.rest hs
  unfold armContent
  dsimp only
  rw [A.peek hs]
  refine Keeps.ite Iff.rfl (fun h60 => ?_) (fun _ => ?_)
  · have hlt := A.peek_lt hs (by rw [h60]; decide)
    have hs1 : (adv s 1).pos ≤ x.length := by simp only [adv]; omega
    obtain ⟨r1, z, z', _, g1, g2, g3⟩ := A.rest hs1
    rw [A.peek hs1, g1, g2, lit_local (by decide) z z']
    refine Keeps.ite Iff.rfl (fun _ => Keeps.ite Iff.rfl (fun _ => Keeps.refl) (fun _ => ?_)) (fun _ => Keeps.refl)
    refine Keeps.bind fun w hw => ?_
    obtain ⟨e1, e2⟩ := A.sliceFrom hs1 hw
    refine ⟨_, e2, ?_⟩
    rw [e1, g1, g2, isDoctype_local r1 z z']
    exact Keeps.refl
  · rw [h1, h2]
    by_cases hm : 60 ∈ r
    · rw [(untilByte_mem_local hm (62 :: y) (62 :: y')).1]
      exact Keeps.refl
    · apply Keeps.late
      intro s' he
      cases he
      rw [untilByte_notMem hm]
      refine ⟨?_, rfl⟩
      have : untilByte 60 (62 :: y) = untilByte 60 y + 1 := by simp [untilByte, Nat.add_comm]
      simp only [fin, adv]
      omega

theorem armEndTag_keeps (A : Agree x c c') (hs : s.pos ≤ x.length) {o : Nat} :
    Keeps x (armEndTag c s o) (armEndTag c' s o) := by
  obtain ⟨r, y, y', _, h1, h2, h3⟩ := A.rest hs
  unfold armEndTag
  rw [h1, h2, A.peek hs, wsLen_local r y y', A.emit]
  exact Keeps.refl

theorem armTagRest_keeps (A : Agree x c c') (hs : s.pos ≤ x.length) {o : Nat} :
    Keeps x (armTagRest c s o) (armTagRest c' s o) := by
  obtain ⟨r, y, y', _, h1, h2, h3⟩ := A.rest hs
  unfold armTagRest
  rw [h1, h2, A.peek hs, lit_local (by decide) y y', A.emit]
  exact Keeps.refl

theorem nameFirst_close (u : Uni) : nameFirst u 62 = false := rfl
theorem nameRest_close (u : Uni) : nameRest u 62 = false := rfl

theorem nextAttributeName_keeps (A : Agree x c c') (hs : s.pos ≤ x.length) {f f' : Option Str × Sc → R Sc}
    (h : ∀ name s1, s1.pos ≤ x.length → Keeps x (f (name, s1)) (f' (name, s1))) :
    Keeps x (nextAttributeName c s >>= f) (nextAttributeName c' s >>= f') := by
  unfold nextAttributeName
  rw [bind_assoc, bind_assoc]
  refine Keeps.bind fun w hw => ?_
  obtain ⟨e1, e2⟩ := A.sliceFrom hs hw
  refine ⟨_, e2, ?_⟩
  obtain ⟨r, y, y', hr, h1, h2, h3⟩ := A.rest hs
  have hn : attrNameLen (r ++ 62 :: y) ≤ r.length := firstRunLen_le_close (by decide) (by decide) _ _
  have he : attrNameLen (r ++ 62 :: y') = attrNameLen (r ++ 62 :: y) := firstRunLen_local (by decide) (by decide) hr _ _
  dsimp only
  rw [e1, h1, h2, he, A.uni, A.case, List.take_append_of_le_length hn, List.take_append_of_le_length hn]
  split
  · exact h _ _ hs
  · exact h _ _ (by simp only [adv]; omega)

theorem nextElementName_keeps (A : Agree x c c') (hs : s.pos ≤ x.length) {f f' : Option Str × Sc → R Sc}
    (h : ∀ name s1, s1.pos ≤ x.length → Keeps x (f (name, s1)) (f' (name, s1))) :
    Keeps x (nextElementName c s >>= f) (nextElementName c' s >>= f') := by
  unfold nextElementName
  rw [bind_assoc, bind_assoc]
  refine Keeps.bind fun w hw => ?_
  obtain ⟨e1, e2⟩ := A.sliceFrom hs hw
  refine ⟨_, e2, ?_⟩
  obtain ⟨r, y, y', hr, h1, h2, h3⟩ := A.rest hs
  have hn : elementNameLen c.uni (r ++ 62 :: y) ≤ r.length :=
    firstRunLen_le_close (nameFirst_close _) (nameRest_close _) _ _
  have he : elementNameLen c.uni (r ++ 62 :: y') = elementNameLen c.uni (r ++ 62 :: y) :=
    firstRunLen_local (nameFirst_close _) (nameRest_close _) hr _ _
  dsimp only
  rw [e1, h1, h2, A.uni, he, A.case, List.take_append_of_le_length hn, List.take_append_of_le_length hn]
  split
  · exact h _ _ hs
  · exact h _ _ (by simp only [adv]; omega)

theorem armTag_keeps (A : Agree x c c') (hs : s.pos ≤ x.length) {o : Nat} :
    Keeps x (armTag c s o) (armTag c' s o) := by
  obtain ⟨r, y, y', _, h1, h2, h3⟩ := A.rest hs
  unfold armTag
  dsimp only
  rw [h1, h2, wsLen_local r y y']
  refine Keeps.ite Iff.rfl (fun _ => Keeps.refl) (fun _ => Keeps.ite Iff.rfl (fun _ => ?_) (fun _ => armTagRest_keeps A hs))
  refine nextAttributeName_keeps A hs fun name s1 hs1 => ?_
  dsimp only
  refine Keeps.ite Iff.rfl (fun _ => Keeps.refl) (fun _ => ?_)
  have hs2 : ({ s1 with lastAttr := name } : Sc).pos ≤ x.length := hs1
  rw [A.peek hs2]
  exact Keeps.ite Iff.rfl (fun _ => armTagRest_keeps A (s := { s1 with lastAttr := name, hasSpace := false }) hs1)
    (fun _ => armTagRest_keeps A hs2)

theorem internalTag_keeps (A : Agree x c c') (hs : s.pos ≤ x.length) :
    Keeps x (internalTag c s) (internalTag c' s) := by
  unfold internalTag
  rw [(A.eos hs).1, (A.eos hs).2]
  exact armTag_keeps A hs

theorem internalEndTag_keeps (A : Agree x c c') (hs : s.pos ≤ x.length) :
    Keeps x (internalEndTag c s) (internalEndTag c' s) := by
  unfold internalEndTag
  rw [(A.eos hs).1, (A.eos hs).2]
  exact armEndTag_keeps A hs

theorem internalContent_keeps (A : Agree x c c') (hs : s.pos ≤ x.length) :
    Keeps x (internalContent c s) (internalContent c' s) := by
  unfold internalContent
  rw [(A.eos hs).1, (A.eos hs).2]
  exact armContent_keeps A hs

theorem armAfterOpeningEndTag_keeps (A : Agree x c c') (hs : s.pos ≤ x.length) {o : Nat} :
    Keeps x (armAfterOpeningEndTag c s o) (armAfterOpeningEndTag c' s o) := by
  unfold armAfterOpeningEndTag
  refine nextElementName_keeps A hs fun name s1 hs1 => ?_
  obtain ⟨r, y, y', _, h1, h2, h3⟩ := A.rest hs1
  dsimp only
  refine Keeps.ite Iff.rfl (fun _ => Keeps.refl) (fun _ => ?_)
  have e1 : rest c { s1 with state := SS.WithinEndTag } = rest c s1 := rfl
  have e2 : rest c' { s1 with state := SS.WithinEndTag } = rest c' s1 := rfl
  rw [e1, e2, h1, h2, wsLen_local r y y', untilByte_local r y y']
  refine Keeps.ite Iff.rfl (fun _ => Keeps.refl) (fun _ => Keeps.ite Iff.rfl (fun _ => Keeps.refl) (fun _ => ?_))
  refine internalEndTag_keeps A ?_
  have := untilByte_le_close r y'
  simp only [adv]; omega

theorem armAfterOpeningStartTag_keeps (A : Agree x c c') (hs : s.pos ≤ x.length) {o : Nat} :
    Keeps x (armAfterOpeningStartTag c s o) (armAfterOpeningStartTag c' s o) := by
  unfold armAfterOpeningStartTag
  refine nextElementName_keeps A hs fun name s1 hs1 => ?_
  obtain ⟨r, y, y', _, h1, h2, h3⟩ := A.rest hs1
  dsimp only
  refine Keeps.ite Iff.rfl (fun _ => Keeps.refl) (fun _ => ?_)
  have e1 : ∀ c st, rest c { s1 with lastTag := name, lastType := none, lastAttr := none, state := st } = rest c s1 :=
    fun _ _ => rfl
  rw [e1 c s1.state, e1 c SS.WithinTag, e1 c' s1.state, e1 c' SS.WithinTag, h1, h2, wsLen_local r y y', untilByte_local r y y']
  refine Keeps.ite Iff.rfl (fun _ => Keeps.refl) (fun _ => Keeps.ite Iff.rfl (fun _ => Keeps.refl) (fun _ => ?_))
  refine internalTag_keeps A ?_
  have := untilByte_le_close r y'
  simp only [adv]; omega

theorem armAfterAttributeName_keeps (A : Agree x c c') (hs : s.pos ≤ x.length) {o : Nat} :
    Keeps x (armAfterAttributeName c s o) (armAfterAttributeName c' s o) := by
  obtain ⟨r, y, y', _, h1, h2, h3⟩ := A.rest hs
  unfold armAfterAttributeName
  dsimp only
  rw [h1, h2, wsLen_local r y y', A.peek hs]
  exact Keeps.ite Iff.rfl (fun _ => Keeps.refl) (fun _ => Keeps.ite Iff.rfl (fun _ => Keeps.refl) (fun _ =>
    internalTag_keeps A (show ({ s with state := SS.WithinTag } : Sc).pos ≤ x.length from hs)))

theorem rememberQuoted_local (A : Agree x c c') (hs : s.pos ≤ x.length) {o : Nat} (ho : o ≤ x.length) (h1 : o + 1 ≤ s.pos) :
    rememberQuoted c' s o = rememberQuoted c s o := by
  unfold rememberQuoted
  split
  · have e1 : subU s.pos 1 = .ok (s.pos - 1) := if_pos (by omega)
    rw [e1]
    simp only [bind, Except.bind]
    rw [A.slice (a := o + 1) (b := s.pos - 1) (by omega), A.slice (a := s.pos - 1) (b := o + 1) (by omega)]
  · rfl

theorem rememberQuoted_pos {s s' : Sc} {o : Nat} (h : rememberQuoted c s o = .ok s') : s'.pos = s.pos := by
  unfold rememberQuoted at h
  split at h
  · obtain ⟨e, _, h⟩ := bind_ok h
    obtain ⟨v, _, h⟩ := bind_ok h
    cases h
    rfl
  · cases h; rfl

theorem ite_pos_cases {p : Prop} [Decidable p] {a b : Sc} :
    (if p then a else b).pos = a.pos ∨ (if p then a else b).pos = b.pos := by
  split
  · exact .inl rfl
  · exact .inr rfl

theorem armQuotedValue_keeps (A : Agree x c c') (hs : s.pos ≤ x.length) :
    Keeps x (armQuotedValue c s s.pos) (armQuotedValue c' s s.pos) := by
  unfold armQuotedValue
  rw [A.peek hs]
  have ht := internalTag_keeps A (show ({ s with state := SS.WithinTag, hasSpace := false } : Sc).pos ≤ x.length from hs)
  split
  · rename_i ch hch
    refine Keeps.ite Iff.rfl (fun hq => ?_) (fun _ => ht)
    have hlt := A.peek_lt hs (by rw [hch]; simp only [ne_eq, Option.some.injEq]; omega)
    have hs1 : (adv s 1).pos ≤ x.length := by simp only [adv]; omega
    obtain ⟨r, y, y', _, h1, h2, h3⟩ := A.rest hs1
    dsimp only
    rw [h1, h2]
    by_cases hm : ch ∈ r
    · obtain ⟨i1, i2⟩ := untilByte_mem_local hm (62 :: y) (62 :: y')
      rw [← i1]
      generalize untilByte ch (r ++ 62 :: y) = n at i2
      have hs2 : (adv (adv s 1) n).pos ≤ x.length := by simp only [adv] at h3 ⊢; omega
      rw [A.peek hs2]
      generalize hs3e : (if peek c (adv (adv s 1) n) = some ch then adv (adv (adv s 1) n) 1 else adv (adv s 1) n) = s3
      have hs3 : s3.pos ≤ x.length ∧ s.pos + 1 ≤ s3.pos := by
        rw [← hs3e]
        simp only [adv] at h3
        by_cases hb : peek c (adv (adv s 1) n) = some ch
        · rw [if_pos hb]; simp only [adv]; omega
        · rw [if_neg hb]; simp only [adv]; omega
      obtain ⟨hs3, hs3'⟩ := hs3
      rw [rememberQuoted_local A hs3 hs hs3']
      exact Keeps.refl
    · apply Keeps.late
      intro s' he
      obtain ⟨s4, h4, he⟩ := bind_ok he
      have hp := rememberQuoted_pos h4
      cases he
      refine ⟨?_, rfl⟩
      simp only [fin]
      rw [hp, untilByte_notMem hm]
      have : 0 < untilByte ch (62 :: y) := by
        simp only [untilByte]; rw [if_neg (by omega)]; omega
      simp only [adv] at h3
      rcases ite_pos_cases (p := peek c (adv (adv s 1) (r.length + untilByte ch (62 :: y))) = some ch)
        (a := adv (adv (adv s 1) (r.length + untilByte ch (62 :: y))) 1)
        (b := adv (adv s 1) (r.length + untilByte ch (62 :: y))) with e | e <;> rw [e] <;> simp only [adv] <;> omega
  · exact ht

theorem armBeforeAttributeValue_keeps (A : Agree x c c') (hs : s.pos ≤ x.length) :
    Keeps x (armBeforeAttributeValue c s s.pos) (armBeforeAttributeValue c' s s.pos) := by
  obtain ⟨r, y, y', hr, h1, h2, h3⟩ := A.rest hs
  unfold armBeforeAttributeValue
  dsimp only
  rw [h1, h2, wsLen_local r y y', A.peek hs]
  refine Keeps.ite Iff.rfl (fun _ => Keeps.refl) (fun _ => ?_)
  refine Keeps.bind fun w hw => ?_
  obtain ⟨e1, e2⟩ := A.sliceFrom hs hw
  refine ⟨_, e2, ?_⟩
  have hn : unquotedLen (r ++ 62 :: y) ≤ r.length := firstRunLen_le_close (by decide) (by decide) _ _
  have he : unquotedLen (r ++ 62 :: y') = unquotedLen (r ++ 62 :: y) := firstRunLen_local (by decide) (by decide) hr _ _
  rw [e1, h1, h2, he, List.take_append_of_le_length hn, List.take_append_of_le_length hn]
  refine Keeps.ite Iff.rfl (fun _ => armQuotedValue_keeps A hs) (fun h0 => ?_)
  have h62 : (peek c s == some 62) = false := by
    have := unquotedLen_not_close (c := c) (s := s) (by rw [h1]; omega)
    simpa using this
  rw [h62]
  generalize unquotedLen (r ++ 62 :: y) = n at hn h0
  simp only [Bool.false_and, trimValue, Bool.false_eq_true, if_false]
  change Keeps x (extendValue _ _ _ _ >>= _) (extendValue _ _ _ _ >>= _)
  have hs1 : (adv s n).pos ≤ x.length := by simp only [adv]; omega
  rw [A.peek hs1]
  generalize hq : (peek c (adv s n) == some 39 || peek c (adv s n) == some 34) = q
  generalize hs2e : (if q = true then adv (adv s n) 1 else adv s n) = s2
  have hs2 : s2.pos ≤ x.length := by
    rw [← hs2e]
    split
    · rename_i hqt
      subst hqt
      have : peek c (adv s n) ≠ some 62 := by
        intro e; rw [e] at hq; revert hq; decide
      have := A.peek_lt hs1 this
      simp only [adv] at this ⊢; omega
    · exact hs1
  have e3 : ∀ v, extendValue c' q s2.pos v = extendValue c q s2.pos v := by
    intro v
    unfold extendValue
    split
    · cases subU s2.pos v.length with
      | error e => rfl
      | ok a =>
        change (subU a 1 >>= _) = (subU a 1 >>= _)
        cases subU a 1 with
        | error e => rfl
        | ok a => exact A.slice hs2
    · rfl
  rw [e3]
  refine Keeps.bind fun v2 hv2 => ⟨_, hv2, ?_⟩
  change Keeps x (if v2.length > 0 then _ else _) (if v2.length > 0 then _ else _)
  refine Keeps.ite Iff.rfl (fun _ => Keeps.refl) (fun hv => ?_)
  exact absurd (extendValue_pos (by rw [List.length_take]; omega) hv2) hv

/-! ### Scripts -/

theorem headClose_local (t y y' : Str) :
    (if (t ++ 62 :: y).head? = some 62 then 1 else 0) = (if (t ++ 62 :: y').head? = some 62 then 1 else 0) ∧
      (if (t ++ 62 :: y).head? = some 62 then 1 else 0) ≤ t.length + 1 := by
  have hh : (t ++ 62 :: y).head? = (t ++ 62 :: y').head? := by cases t <;> rfl
  rw [hh]
  refine ⟨rfl, ?_⟩
  split <;> omega

theorem scriptTailLen_local {r : Str} (hr : Whole r) (y y' : Str) :
    scriptTailLen (r ++ 62 :: y) = scriptTailLen (r ++ 62 :: y') ∧ scriptTailLen (r ++ 62 :: y) ≤ r.length + 1 := by
  have hn : runLen isSpaceCP (r ++ 62 :: y) ≤ r.length := runLen_le_close (by decide) _ _
  unfold scriptTailLen
  dsimp only
  rw [← runLen_local (p := isSpaceCP) (by decide) hr y y']
  generalize runLen isSpaceCP (r ++ 62 :: y) = n at hn
  rw [List.drop_append_of_le_length hn, List.drop_append_of_le_length hn]
  have hl : (r.drop n).length = r.length - n := List.length_drop
  generalize r.drop n = t at hl
  have hh : (t ++ 62 :: y).head? = (t ++ 62 :: y').head? := by cases t <;> rfl
  by_cases h : (t ++ 62 :: y).head? = some 47
  · have h' := hh ▸ h
    rw [if_pos h, if_pos h']
    cases t with
    | nil => cases h
    | cons b t =>
      simp only [List.length_cons] at hl
      obtain ⟨e1, e2⟩ := headClose_local t y y'
      simp only [List.cons_append, List.drop_succ_cons, List.drop_zero]
      rw [← e1]
      exact ⟨rfl, by omega⟩
  · have h' := hh ▸ h
    rw [if_neg h, if_neg h']
    obtain ⟨e1, e2⟩ := headClose_local t y y'
    simp only [List.drop_zero]
    rw [← e1]
    exact ⟨rfl, by omega⟩

theorem scriptMatchAt_local {r : Str} (hr : Whole r) (y y' : Str) :
    scriptMatchAt (r ++ 62 :: y) = scriptMatchAt (r ++ 62 :: y') ∧
      ∀ k n, scriptMatchAt (r ++ 62 :: y) = some (k, n) → n ≤ r.length + 1 := by
  unfold scriptMatchAt
  rw [← lit_local (l := b!"<!--") (by decide) y y', ← lit_local (l := b!"-->") (by decide) y y',
    ← lit_local (l := b!"<script") (by decide) y y', ← lit_local (l := b!"</script") (by decide) y y']
  by_cases h1 : (b!"<!--").isPrefixOf (r ++ 62 :: y) = true
  · rw [if_pos h1, if_pos h1]
    have := lit_inside (by decide) h1
    simp only [List.length_cons, List.length_nil] at this
    refine ⟨rfl, ?_⟩
    intro k n h
    cases h
    omega
  · rw [if_neg h1, if_neg h1]
    by_cases h2 : (b!"-->").isPrefixOf (r ++ 62 :: y) = true
    · rw [if_pos h2, if_pos h2]
      refine ⟨rfl, ?_⟩
      intro k n h
      cases h
      have : 2 ≤ r.length := by
        match r, h2 with
        | [], h2 => simp [List.isPrefixOf] at h2
        | [a], h2 => simp [List.isPrefixOf] at h2
        | a :: b :: t, _ => simp
      omega
    · rw [if_neg h2, if_neg h2]
      by_cases h3 : (b!"<script").isPrefixOf (r ++ 62 :: y) = true
      · rw [if_pos h3, if_pos h3]
        have := lit_inside (by decide) h3
        simp only [List.length_cons, List.length_nil] at this
        rw [List.drop_append_of_le_length this, List.drop_append_of_le_length this]
        have e1 := (scriptTailLen_local (whole_drop hr 7) y y').1
        have e2 := (scriptTailLen_local (whole_drop hr 7) y y').2
        rw [← e1]
        refine ⟨rfl, ?_⟩
        intro k n h
        rw [List.length_drop] at e2
        have := congrArg Prod.snd (Option.some.inj h)
        simp only [List.length_cons, List.length_nil, Nat.reduceAdd] at this
        omega
      · rw [if_neg h3, if_neg h3]
        by_cases h4 : (b!"</script").isPrefixOf (r ++ 62 :: y) = true
        · rw [if_pos h4, if_pos h4]
          have := lit_inside (by decide) h4
          simp only [List.length_cons, List.length_nil] at this
          rw [List.drop_append_of_le_length this, List.drop_append_of_le_length this]
          have e1 := (scriptTailLen_local (whole_drop hr 8) y y').1
          have e2 := (scriptTailLen_local (whole_drop hr 8) y y').2
          rw [← e1]
          refine ⟨rfl, ?_⟩
          intro k n h
          rw [List.length_drop] at e2
          have := congrArg Prod.snd (Option.some.inj h)
          simp only [List.length_cons, List.length_nil, Nat.reduceAdd] at this
          omega
        · rw [if_neg h4, if_neg h4]
          exact ⟨rfl, fun k n h => by cases h⟩

theorem scriptFind_local {r : Str} (hr : Whole r) {y : Str} (y' : Str) {k : ScriptMatch} {i n : Nat}
    (h : scriptFind (r ++ 62 :: y) = some (k, i, n)) (hi : i ≤ r.length) :
    scriptFind (r ++ 62 :: y') = some (k, i, n) ∧ i + n ≤ r.length + 1 := by
  induction r generalizing i with
  | nil =>
    obtain ⟨e1, e2⟩ := scriptMatchAt_local (r := []) trivial y y'
    simp only [List.nil_append, scriptFind] at h e1 e2 ⊢
    rw [← e1]
    cases hm : scriptMatchAt (62 :: y) with
    | none =>
      rw [hm] at h
      simp only [Option.map_eq_some_iff] at h
      obtain ⟨⟨k', i', n'⟩, _, h⟩ := h
      cases h
      simp at hi
    | some v =>
      obtain ⟨k', n'⟩ := v
      rw [hm] at h
      cases h
      refine ⟨rfl, ?_⟩
      have := e2 _ _ hm
      simp only [List.length_nil] at this ⊢
      omega
  | cons b t ih =>
    obtain ⟨e1, e2⟩ := scriptMatchAt_local hr y y'
    simp only [List.cons_append, scriptFind] at h e1 e2 ⊢
    rw [← e1]
    cases hm : scriptMatchAt (b :: (t ++ 62 :: y)) with
    | none =>
      rw [hm] at h
      simp only [Option.map_eq_some_iff] at h ⊢
      obtain ⟨⟨k', i', n'⟩, h1, h⟩ := h
      cases h
      simp only [List.length_cons] at hi
      obtain ⟨h2, h3⟩ := ih hr.2 h1 (by omega)
      exact ⟨⟨_, h2, rfl⟩, by simp only [List.length_cons] at h3 ⊢; omega⟩
    | some v =>
      obtain ⟨k', n'⟩ := v
      rw [hm] at h
      cases h
      have := e2 _ _ hm
      refine ⟨rfl, ?_⟩
      omega

theorem scriptLoop_keeps (A : Agree x c c') {f f' st pos p : Nat} (hs : pos ≤ x.length)
    (h : scriptLoop c f st pos = .ok (.at p)) (hp : p ≤ x.length) (hf : x.length + 1 < f' + pos) :
    scriptLoop c' f' st pos = .ok (.at p) := by
  have hl := A.lt
  induction f generalizing f' st pos with
  | zero => cases h
  | succ f ih =>
    cases f' with
    | zero => omega
    | succ f' =>
      unfold scriptLoop at h ⊢
      rw [if_neg (by omega)] at h ⊢
      obtain ⟨w, hw, h⟩ := bind_ok h
      obtain ⟨e1, e2⟩ := A.sliceTo hs hw
      rw [e2]
      change (match scriptFind (c'.src.drop pos) with | none => _ | some (k, i, n) => _) = _
      obtain ⟨r, y, y', hr, h1, h2, h3⟩ := A.rest (s := { Sc.new 0 .WithinContent with pos := pos }) hs
      simp only [rest] at h1 h2
      rw [h2]
      rw [e1, h1] at h
      cases hf : scriptFind (r ++ 62 :: y) with
      | none => rw [hf] at h; cases h
      | some v =>
        obtain ⟨k, i, n⟩ := v
        rw [hf] at h
        simp only at h
        obtain ⟨hn, hin, _⟩ := scriptFind_le hf
        have hin' : pos + i + n ≤ c.src.length := by
          rw [← h1] at hin
          simp only [List.length_drop] at hin
          omega
        have hge : pos + i ≤ p ∧ (∀ st', scriptLoop c f st' (pos + i + n) = .ok (.at p) → pos + i + n ≤ p) := by
          refine ⟨?_, fun st' h => (scriptLoop_at hin' h).1⟩
          cases k with
          | commentOpen => have := (scriptLoop_at hin' h).1; omega
          | commentClose => have := (scriptLoop_at hin' h).1; omega
          | scriptOpen => have := (scriptLoop_at hin' h).1; omega
          | scriptClose =>
            simp only at h
            split at h
            · have := (scriptLoop_at hin' h).1; omega
            · obtain ⟨q, hq, h⟩ := bind_ok h
              cases h
              have := subU_ok hq
              omega
        simp only at h3
        obtain ⟨g1, g2⟩ := scriptFind_local hr y' hf (by omega)
        rw [g1]
        simp only
        have step : ∀ st', scriptLoop c f st' (pos + i + n) = .ok (.at p) →
            scriptLoop c' f' st' (pos + i + n) = .ok (.at p) := fun st' h => by
          have := hge.2 st' h
          exact ih (by omega) h (by omega)
        cases k with
        | commentOpen => exact step _ h
        | commentClose => exact step _ h
        | scriptOpen => exact step _ h
        | scriptClose =>
          simp only at h ⊢
          split at h
          · rename_i hst
            rw [if_pos hst]; exact step _ h
          · rename_i hst
            rw [if_neg hst]; exact h

theorem armScript_keeps (A : Agree x c c') (hs : s.pos ≤ x.length) :
    Keeps x (armScript c s s.pos) (armScript c' s s.pos) := by
  have hl := A.lt
  intro s' h he
  unfold armScript at h ⊢
  obtain ⟨e, h1, h⟩ := bind_ok h
  cases e with
  | noMatch =>
    cases h
    rcases he with he | ⟨_, he⟩
    · simp only [fin, goToEnd] at he; omega
    · cases he
  | «at» p =>
    have hsp := (scriptLoop_at (by omega) h1).1
    simp only at h
    by_cases hp : p ≤ x.length
    · rw [scriptLoop_keeps A (f' := c'.src.length - s.pos + 1) hs h1 hp (by omega)]
      change (if _ then _ else _) = _
      split at h
      · rename_i hlt
        rw [if_pos hlt]; exact h
      · rename_i hlt
        rw [if_neg hlt]
        exact internalContent_keeps A (show ({ s with pos := p, state := SS.WithinContent } : Sc).pos ≤ x.length from hp) s' h he
    · rw [if_pos (by omega)] at h
      cases h
      rcases he with he | ⟨_, he⟩
      · simp only [fin] at he; omega
      · cases he

theorem armStyle_keeps (A : Agree x c c') (hs : s.pos ≤ x.length) :
    Keeps x (armStyle c s s.pos) (armStyle c' s s.pos) := by
  obtain ⟨r, y, y', _, h1, h2, h3⟩ := A.rest hs
  unfold armStyle
  refine Keeps.bind fun w hw => ?_
  obtain ⟨e1, e2⟩ := A.sliceFrom hs hw
  refine ⟨_, e2, ?_⟩
  rw [e1, h1, h2]
  dsimp only
  by_cases hn : untilLit b!"</style" (r ++ 62 :: y) ≤ r.length
  · rw [untilLit_local (by decide) hn y']
    refine Keeps.ite Iff.rfl (fun _ => Keeps.refl) (fun _ => internalContent_keeps A ?_)
    simp only [adv]; omega
  · rw [if_pos (by simp only [adv]; omega)]
    apply Keeps.late
    intro s' he
    cases he
    refine ⟨?_, rfl⟩
    simp only [fin, adv]; omega

/-! ### Scanning -/

theorem internalScan_keeps (A : Agree x c c') (hs : s.pos ≤ x.length) :
    Keeps x (internalScan c s) (internalScan c' s) := by
  unfold internalScan
  rw [(A.eos hs).1, (A.eos hs).2]
  simp only [Bool.false_eq_true, if_false]
  cases s.state
  · exact armContent_keeps A hs
  · exact armAfterOpeningStartTag_keeps A hs
  · exact armAfterOpeningEndTag_keeps A hs
  · exact armDoctype_keeps A hs
  · exact armTag_keeps A hs
  · exact armEndTag_keeps A hs
  · exact armComment_keeps A hs
  · exact armScript_keeps A hs
  · exact armStyle_keeps A hs
  · exact armAfterAttributeName_keeps A hs
  · exact armBeforeAttributeValue_keeps A hs

/-- A scan that ends in front of the `>` or with it gives the same result whatever follows. -/
theorem scan_keeps (A : Agree x c c') (hs : s.pos ≤ x.length) : Keeps x (scan c s) (scan c' s) := by
  rw [scan_eq_internalScan, scan_eq_internalScan]
  exact internalScan_keeps A hs

end Html
