import Verif.Proof.LetterCase

/-!
# The scanner on two texts that differ in letter case only: the arms
-/

namespace Html
open Spec

/-- Two scanners that ignore the case, on texts that differ in letter case only. -/
structure Alike (c c' : Cfg) : Prop where
  uni : c'.uni = c.uni
  pseudo : c'.emitPseudo = c.emitPseudo
  cs : c.caseSensitive = false
  cs' : c'.caseSensitive = false
  low : LowersLetters c.uni
  src : SameLetters c.src c'.src
  raw : SameRawTags c.src c'.src

/-- The scanner with another value of the last `type` attribute. -/
def ty (s : Sc) (l : Option Str) : Sc := { s with lastType := l }

/-- The same result up to the text of the last `type` attribute. -/
def ER : R Sc → R Sc → Prop
  | .ok s, .ok s' => ∃ l, s' = ty s l ∧ s.lastType.isSome = l.isSome
  | .error e, .error e' => e = e'
  | _, _ => False

section
variable {c c' : Cfg} (h : Alike c c')
include h

theorem alike_peek (s : Sc) (l : Option Str) {k : Nat} (hk : NoLetter k) :
    (peek c' (ty s l) = some k) = (peek c s = some k) := same_at h.src s.pos hk

theorem alike_rest (s : Sc) (l : Option Str) : SameLetters (rest c s) (rest c' (ty s l)) := same_drop h.src _

theorem alike_eos (s : Sc) (l : Option Str) : eos c' (ty s l) = eos c s := by
  unfold eos
  rw [same_length h.src]
  rfl

theorem alike_slice (s : Sc) (l : Option Str) :
    (∃ x y, sliceFrom c s = .ok x ∧ sliceFrom c' (ty s l) = .ok y ∧ SameLetters x y ∧ x = rest c s ∧
      y = rest c' (ty s l)) ∨
    (sliceFrom c s = .error .slice ∧ sliceFrom c' (ty s l) = .error .slice) := by
  unfold sliceFrom
  rw [← same_length h.src]
  rcases same_slice h.src s.pos c.src.length with ⟨x, y, h1, h2, h3⟩ | h1
  · refine .inl ⟨x, y, h1, h2, h3, ?_, ?_⟩
    · unfold sliceStr at h1
      split at h1
      · injection h1 with h1
        rw [← h1, List.take_length]; rfl
      · cases h1
    · unfold sliceStr at h2
      split at h2
      · injection h2 with h2
        rw [← h2, same_length h.src, List.take_length]; rfl
      · cases h2
  · exact .inr h1

theorem alike_ws (s : Sc) (l : Option Str) : wsLen (rest c' (ty s l)) = wsLen (rest c s) :=
  (same_wsLen (alike_rest h s l)).symm

theorem alike_until (s : Sc) (l : Option Str) {k : Nat} (hk : NoLetter k) :
    untilByte k (rest c' (ty s l)) = untilByte k (rest c s) :=
  (same_untilByte hk (alike_rest h s l)).symm

theorem alike_prefix (s : Sc) (l : Option Str) {lit : Str} (hk : ∀ k ∈ lit, NoLetter k) :
    lit.isPrefixOf (rest c' (ty s l)) = lit.isPrefixOf (rest c s) :=
  (same_isPrefixOf hk (alike_rest h s l)).symm

theorem alike_elementName (s : Sc) (l : Option Str) :
    (∃ n s1, nextElementName c s = .ok (n, s1) ∧ nextElementName c' (ty s l) = .ok (n, ty s1 l) ∧
      s1.lastType = s.lastType) ∨
    (nextElementName c s = .error .slice ∧ nextElementName c' (ty s l) = .error .slice) := by
  unfold nextElementName
  rcases alike_slice h s l with ⟨x, y, h1, h2, h3, _⟩ | ⟨h1, h2⟩
  · rw [h1, h2]
    simp only [bind, Except.bind, h.cs, h.cs', h.uni]
    have hn : elementNameLen c.uni y = elementNameLen c.uni x :=
      (same_firstRunLen (noCase_nameFirst _) (noCase_nameRest _) h3).symm
    rw [hn, ← same_toLower h.low (same_take h3 _)]
    split
    · exact .inl ⟨_, _, rfl, rfl, rfl⟩
    · exact .inl ⟨_, _, rfl, rfl, rfl⟩
  · rw [h1, h2]
    exact .inr ⟨rfl, rfl⟩

theorem alike_attrName (s : Sc) (l : Option Str) :
    (∃ n s1, nextAttributeName c s = .ok (n, s1) ∧ nextAttributeName c' (ty s l) = .ok (n, ty s1 l) ∧
      s1.lastType = s.lastType) ∨
    (nextAttributeName c s = .error .slice ∧ nextAttributeName c' (ty s l) = .error .slice) := by
  unfold nextAttributeName
  rcases alike_slice h s l with ⟨x, y, h1, h2, h3, _⟩ | ⟨h1, h2⟩
  · rw [h1, h2]
    simp only [bind, Except.bind, h.cs, h.cs', h.uni]
    have hn : attrNameLen y = attrNameLen x := (same_firstRunLen noCase_attrName noCase_attrName h3).symm
    rw [hn, ← same_toLower h.low (same_take h3 _)]
    split
    · exact .inl ⟨_, _, rfl, rfl, rfl⟩
    · exact .inl ⟨_, _, rfl, rfl, rfl⟩
  · rw [h1, h2]
    exact .inr ⟨rfl, rfl⟩

theorem alike_armComment (s : Sc) (l : Option Str) (o : Nat) (hl : s.lastType.isSome = l.isSome) :
    ER (armComment c s o) (armComment c' (ty s l) o) := by
  unfold armComment
  have hu : untilLit b!"-->" (rest c' (ty s l)) = untilLit b!"-->" (rest c s) := by
    have hr := alike_rest h s l
    exact (same_untilLit (same_length hr) fun o => same_isPrefixOf (by decide) (same_drop hr o)).symm
  rw [alike_prefix h s l (by decide), hu]
  split
  · exact ⟨l, rfl, hl⟩
  · exact ⟨l, rfl, hl⟩

theorem alike_armDoctype (s : Sc) (l : Option Str) (o : Nat) (hl : s.lastType.isSome = l.isSome) :
    ER (armDoctype c s o) (armDoctype c' (ty s l) o) := by
  unfold armDoctype
  simp only [alike_peek h s l (k := 62) (by decide), alike_until h s l (k := 62) (by decide)]
  split
  · exact ⟨l, rfl, hl⟩
  · exact ⟨l, rfl, hl⟩

theorem alike_armContent (s : Sc) (l : Option Str) (o : Nat) (hl : s.lastType.isSome = l.isSome) :
    ER (armContent c s o) (armContent c' (ty s l) o) := by
  unfold armContent
  have ha : adv (ty s l) 1 = ty (adv s 1) l := rfl
  simp only [ha, alike_peek h s l (k := 60) (by decide), alike_until h s l (k := 60) (by decide),
    alike_peek h (adv s 1) l (k := 47) (by decide), alike_peek h (adv s 1) l (k := 33) (by decide),
    alike_prefix h (adv s 1) l (lit := b!"!--") (by decide)]
  have tail : ER (if peek c (adv s 1) = some 47 then
        .ok (fin { adv (adv s 1) 1 with state := .AfterOpeningEndTag } o .EndTagOpen none)
      else .ok (fin { adv s 1 with state := .AfterOpeningStartTag } o .StartTagOpen none))
      (if peek c (adv s 1) = some 47 then
        .ok (fin { adv (ty (adv s 1) l) 1 with state := .AfterOpeningEndTag } o .EndTagOpen none)
      else .ok (fin { ty (adv s 1) l with state := .AfterOpeningStartTag } o .StartTagOpen none)) := by
    split
    · exact ⟨l, rfl, hl⟩
    · exact ⟨l, rfl, hl⟩
  split
  · split
    · split
      · exact ⟨l, rfl, hl⟩
      · rcases alike_slice h (adv s 1) l with ⟨x, y, h1, h2, h3, _⟩ | ⟨h1, h2⟩
        · rw [h1, h2]
          simp only [bind, Except.bind, same_isDoctype h3]
          split
          · exact ⟨l, rfl, hl⟩
          · exact tail
        · rw [h1, h2]
          rfl
    · exact tail
  · exact ⟨l, rfl, hl⟩

theorem alike_armEndTag (s : Sc) (l : Option Str) (o : Nat) (hl : s.lastType.isSome = l.isSome) :
    ER (armEndTag c s o) (armEndTag c' (ty s l) o) := by
  unfold armEndTag
  simp only [h.pseudo, alike_ws h s l, alike_peek h s l (k := 62) (by decide), alike_peek h s l (k := 60) (by decide)]
  split
  · exact ⟨l, rfl, hl⟩
  · split
    · exact ⟨l, rfl, hl⟩
    · split
      · exact ⟨l, rfl, hl⟩
      · exact ⟨l, rfl, hl⟩

theorem alike_armTagRest (s : Sc) (l : Option Str) (o : Nat) (hl : s.lastType.isSome = l.isSome) :
    ER (armTagRest c s o) (armTagRest c' (ty s l) o) := by
  unfold armTagRest
  have ha : afterStartTag (ty s l) = afterStartTag s := by
    unfold afterStartTag
    show (if s.lastTag = _ then (if l.isSome = true then _ else _) else _) = _
    rw [hl]
    rfl
  simp only [h.pseudo, ha, alike_prefix h s l (lit := b!"/>") (by decide), alike_peek h s l (k := 62) (by decide),
    alike_peek h s l (k := 60) (by decide)]
  split
  · exact ⟨l, rfl, hl⟩
  · split
    · exact ⟨l, rfl, hl⟩
    · split
      · exact ⟨l, rfl, hl⟩
      · exact ⟨l, rfl, hl⟩

theorem alike_armTag (s : Sc) (l : Option Str) (o : Nat) (hl : s.lastType.isSome = l.isSome) :
    ER (armTag c s o) (armTag c' (ty s l) o) := by
  unfold armTag
  have hs : (ty s l).hasSpace = s.hasSpace := rfl
  simp only [alike_ws h s l, hs]
  split
  · exact ⟨l, rfl, hl⟩
  · split
    · rcases alike_attrName h s l with ⟨n, s1, h1, h2, h3⟩ | ⟨h1, h2⟩
      · rw [h1, h2]
        have hp := alike_peek h { s1 with lastAttr := n } l (k := 61) (by decide)
        have hty : ({ ty s1 l with lastAttr := n } : Sc) = ty { s1 with lastAttr := n } l := rfl
        simp only [bind, Except.bind, hty, hp]
        split
        · exact ⟨l, rfl, by show s1.lastType.isSome = _; rw [h3, hl]⟩
        · split
          · exact alike_armTagRest h { s1 with lastAttr := n, hasSpace := false } l o
              (by show s1.lastType.isSome = _; rw [h3, hl])
          · exact alike_armTagRest h { s1 with lastAttr := n } l o (by show s1.lastType.isSome = _; rw [h3, hl])
      · rw [h1, h2]
        rfl
    · exact alike_armTagRest h s l o hl

theorem alike_internalEndTag (s : Sc) (l : Option Str) (hl : s.lastType.isSome = l.isSome) :
    ER (internalEndTag c s) (internalEndTag c' (ty s l)) := by
  unfold internalEndTag
  rw [alike_eos h]
  split
  · exact ⟨l, rfl, hl⟩
  · exact alike_armEndTag h s l _ hl

theorem alike_internalTag (s : Sc) (l : Option Str) (hl : s.lastType.isSome = l.isSome) :
    ER (internalTag c s) (internalTag c' (ty s l)) := by
  unfold internalTag
  rw [alike_eos h]
  split
  · exact ⟨l, rfl, hl⟩
  · exact alike_armTag h s l _ hl

theorem alike_internalContent (s : Sc) (l : Option Str) (hl : s.lastType.isSome = l.isSome) :
    ER (internalContent c s) (internalContent c' (ty s l)) := by
  unfold internalContent
  rw [alike_eos h]
  split
  · exact ⟨l, rfl, hl⟩
  · exact alike_armContent h s l _ hl

theorem alike_armAfterOpeningEndTag (s : Sc) (l : Option Str) (o : Nat) (hl : s.lastType.isSome = l.isSome) :
    ER (armAfterOpeningEndTag c s o) (armAfterOpeningEndTag c' (ty s l) o) := by
  unfold armAfterOpeningEndTag
  rcases alike_elementName h s l with ⟨n, s1, h1, h2, h3⟩ | ⟨h1, h2⟩
  · rw [h1, h2]
    have hl1 : s1.lastType.isSome = l.isSome := by rw [h3, hl]
    have hty : ({ ty s1 l with state := SS.WithinEndTag } : Sc) = ty { s1 with state := SS.WithinEndTag } l := rfl
    simp only [bind, Except.bind, alike_ws h s1 l, hty,
      alike_until h { s1 with state := SS.WithinEndTag } l (k := 62) (by decide)]
    split
    · exact ⟨l, rfl, hl1⟩
    · split
      · exact ⟨l, rfl, hl1⟩
      · have ha : ∀ s n, (adv (ty s l) n).pos = (adv s n).pos := fun _ _ => rfl
        rw [ha]
        split
        · exact ⟨l, rfl, hl1⟩
        · exact alike_internalEndTag h (adv { s1 with state := SS.WithinEndTag } _) l hl1
  · rw [h1, h2]
    rfl

theorem alike_skip (s : Sc) (l : Option Str) (o : Nat) (hl : s.lastType.isSome = l.isSome) :
    ER (if o < (adv s (untilByte 62 (rest c s))).pos then
        .ok (fin (adv s (untilByte 62 (rest c s))) o .Unknown (some .startTagNameExpected))
      else internalTag c (adv s (untilByte 62 (rest c s))))
    (if o < (adv (ty s l) (untilByte 62 (rest c' (ty s l)))).pos then
        .ok (fin (adv (ty s l) (untilByte 62 (rest c' (ty s l)))) o .Unknown (some .startTagNameExpected))
      else internalTag c' (adv (ty s l) (untilByte 62 (rest c' (ty s l))))) := by
  rw [alike_until h s l (by decide)]
  have ha : ∀ n, (adv (ty s l) n).pos = (adv s n).pos := fun _ => rfl
  rw [ha]
  split
  · exact ⟨l, rfl, hl⟩
  · exact alike_internalTag h (adv s _) l hl

theorem alike_armAfterOpeningStartTag (s : Sc) (l : Option Str) (o : Nat) :
    ER (armAfterOpeningStartTag c s o) (armAfterOpeningStartTag c' (ty s l) o) := by
  unfold armAfterOpeningStartTag
  rcases alike_elementName h s l with ⟨n, s1, h1, h2, h3⟩ | ⟨h1, h2⟩
  · rw [h1, h2]
    have hty : ({ ty s1 l with lastTag := n, lastType := none, lastAttr := none } : Sc) =
      ty { s1 with lastTag := n, lastType := none, lastAttr := none } none := rfl
    simp only [bind, Except.bind, hty, alike_ws h { s1 with lastTag := n, lastType := none, lastAttr := none } none]
    split
    · exact ⟨none, rfl, rfl⟩
    · split
      · exact ⟨none, rfl, rfl⟩
      · exact alike_skip h { s1 with lastTag := n, lastType := none, lastAttr := none, state := SS.WithinTag } none o rfl
  · rw [h1, h2]
    rfl

theorem alike_armAfterAttributeName (s : Sc) (l : Option Str) (o : Nat) (hl : s.lastType.isSome = l.isSome) :
    ER (armAfterAttributeName c s o) (armAfterAttributeName c' (ty s l) o) := by
  unfold armAfterAttributeName
  simp only [alike_ws h s l, alike_peek h s l (k := 61) (by decide)]
  split
  · exact ⟨l, rfl, hl⟩
  · split
    · exact ⟨l, rfl, hl⟩
    · exact alike_internalTag h { s with state := .WithinTag } l hl

omit h in
theorem same_nonEmpty {x y : Str} (hxy : SameLetters x y) : (nonEmpty x).isSome = (nonEmpty y).isSome := by
  unfold nonEmpty
  rw [same_length hxy]
  split <;> rfl

theorem alike_rememberQuoted (s : Sc) (l : Option Str) (o : Nat) (hl : s.lastType.isSome = l.isSome) :
    ER (rememberQuoted c s o) (rememberQuoted c' (ty s l) o) := by
  unfold rememberQuoted
  show ER _ (if s.lastAttr = some b!"type" then _ else _)
  split
  · show ER _ (subU s.pos 1 >>= _)
    cases he : subU s.pos 1 with
    | error e => exact rfl
    | ok e =>
      simp only [bind, Except.bind]
      by_cases hgt : o + 1 > e
      · rw [if_pos hgt, if_pos hgt]
        rcases same_slice h.src e (o + 1) with ⟨x, y, h1, h2, h3⟩ | ⟨h1, h2⟩
        · rw [h1, h2]
          exact ⟨_, rfl, same_nonEmpty h3⟩
        · rw [h1, h2]
          rfl
      · rw [if_neg hgt, if_neg hgt]
        rcases same_slice h.src (o + 1) e with ⟨x, y, h1, h2, h3⟩ | ⟨h1, h2⟩
        · rw [h1, h2]
          exact ⟨_, rfl, same_nonEmpty h3⟩
        · rw [h1, h2]
          rfl
  · exact ⟨l, rfl, hl⟩

omit h in
theorem ER.map {r r' : R Sc} (hr : ER r r') (f : Sc → Sc) (hf : ∀ s l, f (ty s l) = ty (f s) l ∧ (f s).lastType = s.lastType) :
    ER (r >>= fun s => .ok (f s)) (r' >>= fun s => .ok (f s)) := by
  cases r with
  | error e => cases r' with
    | error e' => exact hr
    | ok s => exact hr.elim
  | ok s => cases r' with
    | error e' => exact hr.elim
    | ok s' =>
      obtain ⟨l, rfl, h2⟩ := hr
      exact ⟨l, (hf s l).1, by rw [(hf s l).2]; exact h2⟩

theorem alike_quoted (s : Sc) (l : Option Str) (o k : Nat) (hk : NoLetter k) (hl : s.lastType.isSome = l.isSome) :
    ER (do
      let s1 := adv s 1
      let n := untilByte k (rest c s1)
      let s2 := adv s1 n
      let s3 := if peek c s2 = some k then adv s2 1 else s2
      let s4 ← rememberQuoted c s3 o
      .ok (fin { s4 with state := .WithinTag, hasSpace := false } o .AttributeValue none))
    (do
      let s1 := adv (ty s l) 1
      let n := untilByte k (rest c' s1)
      let s2 := adv s1 n
      let s3 := if peek c' s2 = some k then adv s2 1 else s2
      let s4 ← rememberQuoted c' s3 o
      .ok (fin { s4 with state := .WithinTag, hasSpace := false } o .AttributeValue none)) := by
  have ha : adv (ty s l) 1 = ty (adv s 1) l := rfl
  have ha2 : ∀ n, adv (ty (adv s 1) l) n = ty (adv (adv s 1) n) l := fun _ => rfl
  simp only [ha, alike_until h (adv s 1) l hk, ha2, alike_peek h (adv (adv s 1) _) l hk]
  have h3 : ∀ (p : Prop) [Decidable p] (a b : Sc), (if p then ty a l else ty b l) = ty (if p then a else b) l := by
    intro p _ a b; split <;> rfl
  have ha3 : adv (ty (adv (adv s 1) (untilByte k (rest c (adv s 1)))) l) 1 =
    ty (adv (adv (adv s 1) (untilByte k (rest c (adv s 1)))) 1) l := rfl
  rw [ha3, h3]
  refine ER.map (alike_rememberQuoted h _ l o ?_) (fun s4 => fin { s4 with state := .WithinTag, hasSpace := false } o
    .AttributeValue none) (fun _ _ => ⟨rfl, rfl⟩)
  split <;> exact hl

theorem alike_armQuotedValue (s : Sc) (l : Option Str) (o : Nat) (hl : s.lastType.isSome = l.isSome) :
    ER (armQuotedValue c s o) (armQuotedValue c' (ty s l) o) := by
  have h39 := alike_peek h s l (k := 39) (by decide)
  have h34 := alike_peek h s l (k := 34) (by decide)
  by_cases p39 : peek c s = some 39
  · rw [p39, eq_true rfl, eq_iff_iff, iff_true] at h39
    unfold armQuotedValue
    rw [p39, h39]
    exact alike_quoted h s l o 39 (by decide) hl
  · by_cases p34 : peek c s = some 34
    · rw [p34, eq_true rfl, eq_iff_iff, iff_true] at h34
      unfold armQuotedValue
      rw [p34, h34]
      exact alike_quoted h s l o 34 (by decide) hl
    · have key : ∀ (c : Cfg) (s : Sc), peek c s ≠ some 39 → peek c s ≠ some 34 →
          armQuotedValue c s o = internalTag c { s with state := .WithinTag, hasSpace := false } := by
        intro c s h1 h2
        unfold armQuotedValue
        split
        · rename_i ch hch
          rw [hch] at h1 h2
          rw [if_neg]
          rintro (rfl | rfl)
          · exact h1 rfl
          · exact h2 rfl
        · rfl
      rw [key c s p39 p34, key c' (ty s l) (by rw [Ne, h39]; exact p39) (by rw [Ne, h34]; exact p34)]
      exact alike_internalTag h { s with state := .WithinTag, hasSpace := false } l hl

omit h in
theorem isSome_beq (a : Option Nat) (k : Nat) : (a == some k) = decide (a = some k) := by
  rw [Bool.eq_iff_iff, beq_iff_eq, decide_eq_true_iff]

theorem alike_prev (s : Sc) (l : Option Str) {k : Nat} (hk : NoLetter k) :
    (peekPrev c' (ty s l) = some k) = (peekPrev c s = some k) := by
  unfold peekPrev
  show ((if s.pos = 0 then none else c'.src[s.pos - 1]?) = some k) = _
  split
  · rfl
  · exact same_at h.src (s.pos - 1) hk

omit h in
theorem same_trim {x y : Str} (hxy : SameLetters x y) (g : Bool) :
    (∃ a b, trimValue g x = .ok a ∧ trimValue g y = .ok b ∧ SameLetters a b) ∨
    (trimValue g x = .error .slice ∧ trimValue g y = .error .slice) := by
  unfold trimValue
  cases g with
  | true =>
    simp only [if_true]
    rw [← same_length hxy]
    exact same_slice hxy _ _
  | false => exact .inl ⟨_, _, rfl, rfl, hxy⟩

theorem same_extend {x y : Str} (hxy : SameLetters x y) (q : Bool) (pos : Nat) :
    (∃ a b, extendValue c q pos x = .ok a ∧ extendValue c' q pos y = .ok b ∧ SameLetters a b) ∨
    (∃ e, extendValue c q pos x = .error e ∧ extendValue c' q pos y = .error e) := by
  unfold extendValue
  cases q with
  | true =>
    simp only [if_true]
    rw [← same_length hxy]
    cases h1 : subU pos x.length with
    | error e => exact .inr ⟨e, rfl, rfl⟩
    | ok a =>
      simp only [bind, Except.bind]
      cases h2 : subU a 1 with
      | error e => exact .inr ⟨e, rfl, rfl⟩
      | ok a' =>
        simp only
        rcases same_slice h.src a' pos with h3 | h3
        · exact .inl h3
        · exact .inr ⟨_, h3⟩
  | false => exact .inl ⟨_, _, rfl, rfl, hxy⟩

/-- What is done with an unquoted value. -/
theorem alike_value (s : Sc) (l : Option Str) (o : Nat) (g : Bool) {v v' : Str} (hv : SameLetters v v')
    (hl : s.lastType.isSome = l.isSome) :
    ER (do
      let s3 := if s.lastAttr = some b!"type" then { s with lastType := nonEmpty v } else s
      let s4 ← (if g then goBack s3 1 else .ok s3)
      if v.length > 0 then
        .ok (fin { s4 with state := .WithinTag, hasSpace := false } o .AttributeValue none)
      else armQuotedValue c s4 o)
    (do
      let s3 := if (ty s l).lastAttr = some b!"type" then { ty s l with lastType := nonEmpty v' } else ty s l
      let s4 ← (if g then goBack s3 1 else .ok s3)
      if v'.length > 0 then
        .ok (fin { s4 with state := .WithinTag, hasSpace := false } o .AttributeValue none)
      else armQuotedValue c' s4 o) := by
  have h3 : ∃ s3 l3, (if s.lastAttr = some b!"type" then { s with lastType := nonEmpty v } else s) = s3 ∧
      (if (ty s l).lastAttr = some b!"type" then { ty s l with lastType := nonEmpty v' } else ty s l) = ty s3 l3 ∧
      s3.lastType.isSome = l3.isSome := by
    show ∃ s3 l3, _ ∧ (if s.lastAttr = some b!"type" then _ else _) = ty s3 l3 ∧ _
    split
    · exact ⟨_, _, rfl, rfl, same_nonEmpty hv⟩
    · exact ⟨_, _, rfl, rfl, hl⟩
  obtain ⟨s3, l3, e1, e2, hl3⟩ := h3
  simp only [e1, e2, ← same_length hv]
  have fin1 : ∀ s4, s4.lastType.isSome = l3.isSome →
      ER (if v.length > 0 then .ok (fin { s4 with state := .WithinTag, hasSpace := false } o .AttributeValue none)
          else armQuotedValue c s4 o)
        (if v.length > 0 then .ok (fin { ty s4 l3 with state := .WithinTag, hasSpace := false } o .AttributeValue none)
          else armQuotedValue c' (ty s4 l3) o) := by
    intro s4 h4
    split
    · exact ⟨l3, rfl, h4⟩
    · exact alike_armQuotedValue h s4 l3 o h4
  cases g with
  | true =>
    simp only [if_true]
    unfold goBack
    show ER _ ((subU s3.pos 1 >>= _) >>= _)
    cases subU s3.pos 1 with
    | error e => exact rfl
    | ok q => exact fin1 { s3 with pos := q } hl3
  | false => exact fin1 s3 hl3

theorem alike_armBeforeAttributeValue (s : Sc) (l : Option Str) (o : Nat) (hl : s.lastType.isSome = l.isSome) :
    ER (armBeforeAttributeValue c s o) (armBeforeAttributeValue c' (ty s l) o) := by
  unfold armBeforeAttributeValue
  simp only [alike_ws h s l]
  split
  · exact ⟨l, rfl, hl⟩
  · rcases alike_slice h s l with ⟨x, y, h1, h2, h3, _⟩ | ⟨h1, h2⟩
    · rw [h1, h2]
      have hn : unquotedLen y = unquotedLen x := (same_firstRunLen noCase_unquoted noCase_unquoted h3).symm
      simp only [bind, Except.bind, hn, isSome_beq, alike_peek h s l (k := 62) (by decide),
        alike_prev h s l (k := 47) (by decide)]
      split
      · exact alike_armQuotedValue h s l o hl
      · rcases same_trim (same_take h3 (unquotedLen x)) (decide (peek c s = some 62) && decide (peekPrev c s = some 47))
          with ⟨v, v', t1, t2, hv⟩ | ⟨t1, t2⟩
        · rw [t1, t2]
          have ha : adv (ty s l) (unquotedLen x) = ty (adv s (unquotedLen x)) l := rfl
          simp only [ha, alike_peek h (adv s (unquotedLen x)) l (k := 39) (by decide),
            alike_peek h (adv s (unquotedLen x)) l (k := 34) (by decide)]
          generalize hq : (decide (peek c (adv s (unquotedLen x)) = some 39) ||
            decide (peek c (adv s (unquotedLen x)) = some 34)) = q
          have hs2 : ∃ s2, (if q = true then adv (adv s (unquotedLen x)) 1 else adv s (unquotedLen x)) = s2 ∧
              (if q = true then adv (ty (adv s (unquotedLen x)) l) 1 else ty (adv s (unquotedLen x)) l) = ty s2 l ∧
              s2.lastType.isSome = l.isSome := by
            split
            · exact ⟨_, rfl, rfl, hl⟩
            · exact ⟨_, rfl, rfl, hl⟩
          obtain ⟨s2, e1, e2, hl2⟩ := hs2
          rw [e1, e2]
          rcases same_extend h hv q s2.pos with ⟨w, w', x1, x2, hw⟩ | ⟨e, x1, x2⟩
          · have x2' : extendValue c' q (ty s2 l).pos v' = .ok w' := x2
            rw [x1, x2']
            exact alike_value h s2 l o _ hw hl2
          · have x2' : extendValue c' q (ty s2 l).pos v' = .error e := x2
            rw [x1, x2']
            rfl
        · rw [t1, t2]
          rfl
    · rw [h1, h2]
      rfl

/-! ### Raw content -/

omit h in
theorem same_scriptTail {a b : Str} (hab : SameLetters a b) : scriptTailLen a = scriptTailLen b := by
  unfold scriptTailLen
  have hh : ∀ {a b : Str}, SameLetters a b → ∀ {k}, NoLetter k → (b.head? = some k) = (a.head? = some k) := by
    intro a b hab k hk
    have := same_at hab 0 hk
    rwa [← List.head?_eq_getElem?, ← List.head?_eq_getElem?] at this
  simp only [same_runLen noCase_space hab]
  have h1 := same_drop hab (runLen isSpaceCP b)
  simp only [hh h1 (k := 47) (by decide), hh (same_drop h1 _) (k := 62) (by decide)]

omit h in
theorem same_scriptFind {a b : Str} (hab : SameLetters a b)
    (hr : ∀ o, ∀ lit ∈ [b!"<script", b!"</script"], lit.isPrefixOf (a.drop o) = lit.isPrefixOf (b.drop o)) :
    scriptFind a = scriptFind b := by
  induction a generalizing b with
  | nil => rw [same_nil hab]
  | cons x a ih =>
    rcases same_cases hab with ⟨h, _⟩ | ⟨x', y, a', b', he, rfl, h1, h2⟩
    · cases h
    · cases he
      have hm : scriptMatchAt (x :: a) = scriptMatchAt (y :: b') := by
        unfold scriptMatchAt
        have r1 := hr 0 b!"<script" (by simp)
        have r2 := hr 0 b!"</script" (by simp)
        rw [List.drop_zero, List.drop_zero] at r1 r2
        rw [same_isPrefixOf (lit := b!"<!--") (by decide) hab, same_isPrefixOf (lit := b!"-->") (by decide) hab, r1, r2,
          same_scriptTail (same_drop hab 7), same_scriptTail (same_drop hab 8)]
      unfold scriptFind
      rw [hm, ih h2 (fun o lit hlit => by simpa using hr (o + 1) lit hlit)]

theorem alike_scriptLoop (f st pos : Nat) : scriptLoop c' f st pos = scriptLoop c f st pos := by
  induction f generalizing st pos with
  | zero => rfl
  | succ f ih =>
    unfold scriptLoop
    rw [← same_length h.src]
    split
    · rfl
    · rcases same_slice h.src pos c.src.length with ⟨x, y, h1, h2, h3⟩ | ⟨h1, h2⟩
      · rw [h1, h2]
        have hf : scriptFind x = scriptFind y := by
          refine same_scriptFind h3 ?_
          have hx : x = c.src.drop pos := by
            unfold sliceStr at h1
            split at h1
            · injection h1 with h1
              rw [← h1, List.take_length]
            · cases h1
          have hy : y = c'.src.drop pos := by
            unfold sliceStr at h2
            split at h2
            · injection h2 with h2
              rw [← h2, same_length h.src, List.take_length]
            · cases h2
          intro o lit hlit
          rw [hx, hy, List.drop_drop, List.drop_drop]
          refine h.raw _ lit ?_
          simp only [List.mem_cons, List.not_mem_nil, or_false] at hlit ⊢
          rcases hlit with hlit | hlit
          · exact .inl hlit
          · exact .inr (.inl hlit)
        simp only [bind, Except.bind, hf, ih]
      · rw [h1, h2]
        rfl

theorem alike_armScript (s : Sc) (l : Option Str) (o : Nat) (hl : s.lastType.isSome = l.isSome) :
    ER (armScript c s o) (armScript c' (ty s l) o) := by
  unfold armScript
  rw [alike_scriptLoop h, ← same_length h.src]
  show ER _ (scriptLoop c (c.src.length - s.pos + 1) 1 s.pos >>= _)
  cases scriptLoop c (c.src.length - s.pos + 1) 1 s.pos with
  | error e => exact rfl
  | ok r =>
    cases r with
    | noMatch =>
      have := same_length h.src
      refine ⟨l, ?_, hl⟩
      show fin (goToEnd c' (ty s l)) o .Script none = _
      unfold goToEnd
      rw [← this]
      rfl
    | «at» p =>
      show ER (if o < p then _ else _) (if o < p then _ else _)
      split
      · exact ⟨l, rfl, hl⟩
      · exact alike_internalContent h { s with pos := p, state := .WithinContent } l hl

theorem alike_armStyle (s : Sc) (l : Option Str) (o : Nat) (hl : s.lastType.isSome = l.isSome) :
    ER (armStyle c s o) (armStyle c' (ty s l) o) := by
  unfold armStyle
  rcases alike_slice h s l with ⟨x, y, h1, h2, h3, hx, hy⟩ | ⟨h1, h2⟩
  · rw [h1, h2]
    have hu : untilLit b!"</style" y = untilLit b!"</style" x := by
      refine (same_untilLit (same_length h3) fun o => ?_).symm
      rw [hx, hy]
      unfold rest
      rw [List.drop_drop, List.drop_drop]
      exact h.raw _ b!"</style" (by simp)
    simp only [bind, Except.bind, hu]
    show ER (if o < s.pos + untilLit b!"</style" x then _ else _) (if o < s.pos + untilLit b!"</style" x then _ else _)
    split
    · exact ⟨l, rfl, hl⟩
    · exact alike_internalContent h { adv s (untilLit b!"</style" x) with state := .WithinContent } l hl
  · rw [h1, h2]
    rfl

theorem alike_internalScan (s : Sc) (l : Option Str) (hl : s.lastType.isSome = l.isSome) :
    ER (internalScan c s) (internalScan c' (ty s l)) := by
  unfold internalScan
  rw [alike_eos h]
  split
  · exact ⟨l, rfl, hl⟩
  · show ER _ (match s.state with
      | .WithinComment => armComment c' (ty s l) s.pos
      | .WithinDoctype => armDoctype c' (ty s l) s.pos
      | .WithinContent => armContent c' (ty s l) s.pos
      | .AfterOpeningEndTag => armAfterOpeningEndTag c' (ty s l) s.pos
      | .WithinEndTag => armEndTag c' (ty s l) s.pos
      | .AfterOpeningStartTag => armAfterOpeningStartTag c' (ty s l) s.pos
      | .WithinTag => armTag c' (ty s l) s.pos
      | .AfterAttributeName => armAfterAttributeName c' (ty s l) s.pos
      | .BeforeAttributeValue => armBeforeAttributeValue c' (ty s l) s.pos
      | .WithinScriptContent => armScript c' (ty s l) s.pos
      | .WithinStyleContent => armStyle c' (ty s l) s.pos)
    cases s.state
    · exact alike_armContent h s l _ hl
    · exact alike_armAfterOpeningStartTag h s l _
    · exact alike_armAfterOpeningEndTag h s l _ hl
    · exact alike_armDoctype h s l _ hl
    · exact alike_armTag h s l _ hl
    · exact alike_armEndTag h s l _ hl
    · exact alike_armComment h s l _ hl
    · exact alike_armScript h s l _ hl
    · exact alike_armStyle h s l _ hl
    · exact alike_armAfterAttributeName h s l _ hl
    · exact alike_armBeforeAttributeValue h s l _ hl

theorem alike_scan (s : Sc) (l : Option Str) (hl : s.lastType.isSome = l.isSome) :
    ER (scan c s) (scan c' (ty s l)) := by
  have hi := alike_internalScan h s l hl
  unfold scan
  revert hi
  cases internalScan c s with
  | error e => cases internalScan c' (ty s l) with
    | error e' => exact id
    | ok s' => exact False.elim
  | ok s1 => cases internalScan c' (ty s l) with
    | error e' => exact False.elim
    | ok s' =>
      rintro ⟨l1, rfl, h1⟩
      simp only [bind, Except.bind]
      have hn : notAdvanced c' (ty s l).pos (ty s1 l1) = notAdvanced c s.pos s1 := by
        unfold notAdvanced
        rw [h.pseudo]
        rfl
      rw [hn]
      split
      · exact ⟨l1, rfl, h1⟩
      · exact ⟨l1, rfl, h1⟩

theorem alike_tokensF (f : Nat) (s : Sc) (l : Option Str) (hl : s.lastType.isSome = l.isSome) :
    tokensF c' f (ty s l) = tokensF c f s := by
  induction f generalizing s l with
  | zero => rfl
  | succ f ih =>
    have hs := alike_scan h s l hl
    unfold tokensF
    revert hs
    cases scan c s with
    | error e => cases scan c' (ty s l) with
      | error e' => intro hs; cases hs; rfl
      | ok s' => exact False.elim
    | ok s1 => cases scan c' (ty s l) with
      | error e' => exact False.elim
      | ok s' =>
        rintro ⟨l1, rfl, h1⟩
        simp only [bind, Except.bind, ih s1 l1 h1]
        rfl

theorem alike_tokens (o : Nat) (st : SS) : tokens c' (.new o st) = tokens c (.new o st) := by
  unfold tokens
  rw [← same_length h.src]
  exact alike_tokensF h _ (.new o st) none rfl

end

end Html
