import Verif.Proof.LineEndings
import Verif.Proof.Tile

/-!
# The scanner on a text with other line endings: the arms
-/

namespace Html
open Spec

/-- Two scanners with the same settings, the second one on the text with `\r\n`. -/
structure Lines (c c' : Cfg) : Prop where
  uni : c'.uni = c.uni
  pseudo : c'.emitPseudo = c.emitPseudo
  cs : c'.caseSensitive = c.caseSensitive
  src : c'.src = crlf c.src
  fit : Fit c.src

/-- The scanner at the same place of the text with `\r\n`, with another value of the last `type` attribute. -/
def crS (c : Cfg) (s : Sc) (l : Option Str) : Sc :=
  { s with pos := crOff c.src s.pos, tokenOffset := crOff c.src s.tokenOffset, lastType := l }

/-- The same result at the same place; at the end of the text the `type` attribute does not matter. -/
def EC (c : Cfg) : R Sc → R Sc → Prop
  | .ok s, .ok s' => ∃ l, s' = crS c s l ∧ (s.pos < c.src.length → s.lastType.isSome = l.isSome)
  | .error e, .error e' => e = e'
  | _, _ => False

section
variable {c c' : Cfg} (h : Lines c c')
include h

theorem ln_rest (s : Sc) (l : Option Str) : rest c' (crS c s l) = crlf (rest c s) := by
  unfold rest
  rw [h.src]
  exact crlf_drop _ _

theorem ln_fit (s : Sc) : Fit (rest c s) := h.fit.drop _

theorem ln_peek (s : Sc) (l : Option Str) {k : Nat} (hk : NoEnd k) :
    (peek c' (crS c s l) = some k) = (peek c s = some k) := by
  rw [peek_eq_head, peek_eq_head, ln_rest h]
  exact crlf_head_eq hk

theorem ln_eos (s : Sc) (l : Option Str) : eos c' (crS c s l) = eos c s := by
  unfold eos
  rw [h.src, ← crOff_length]
  show decide (crOff c.src _ ≤ crOff c.src _) = _
  simp only [crOff_le]

omit h in
theorem ln_adv (s : Sc) (l : Option Str) {n k : Nat} (hk : k = n + ((rest c s).take n).count 10) :
    adv (crS c s l) k = crS c (adv s n) l := by
  unfold adv crS
  simp only [Sc.mk.injEq, true_and, and_true]
  rw [crOff_add, hk]
  unfold rest
  omega

theorem ln_meas (s : Sc) (l : Option Str) {f : Str → Nat} (hf : Meas f (rest c s)) :
    adv (crS c s l) (f (rest c' (crS c s l))) = crS c (adv s (f (rest c s))) l :=
  ln_adv s l (by rw [ln_rest h]; exact hf)

omit h in
theorem ln_adv_head (s : Sc) (l : Option Str) {k : Nat} (hk : NoEnd k) (hp : peek c s = some k) :
    adv (crS c s l) 1 = crS c (adv s 1) l := by
  refine ln_adv s l ?_
  rw [peek_eq_head] at hp
  cases hr : rest c s with
  | nil => rw [hr] at hp; cases hp
  | cons x t =>
    rw [hr] at hp; cases hp
    simp [List.count_cons, hk.1]

omit h in
theorem ln_adv_prefix (s : Sc) (l : Option Str) {lit : Str} (hk : ∀ k ∈ lit, NoEnd k) {n : Nat} (hn : lit.length = n)
    (hp : lit.isPrefixOf (rest c s) = true) : adv (crS c s l) n = crS c (adv s n) l := by
  subst hn
  exact ln_adv s l (by rw [count_of_prefix hk hp]; rfl)

omit h in
theorem ln_adv_nows (s : Sc) (l : Option Str) (hw : ¬ wsLen (rest c s) > 0) :
    adv (crS c s l) 1 = crS c (adv s 1) l := by
  refine ln_adv s l ?_
  cases hr : rest c s with
  | nil => simp
  | cons x t =>
    rw [hr] at hw
    have : x ≠ 10 := by rintro rfl; simp [wsLen, isWs] at hw
    simp [List.count_cons, this]

theorem ln_wsPos (s : Sc) (l : Option Str) : (wsLen (rest c' (crS c s l)) > 0) = (wsLen (rest c s) > 0) := by
  have := meas_ws (rest c s)
  unfold Meas at this
  rw [ln_rest h, this, eq_iff_iff]
  constructor
  · intro hp
    rcases Nat.eq_zero_or_pos (wsLen (rest c s)) with h0 | h0
    · rw [h0] at hp; simp at hp
    · exact h0
  · intro hp; omega

theorem ln_prefix (s : Sc) (l : Option Str) {lit : Str} (hk : ∀ k ∈ lit, NoEnd k) :
    lit.isPrefixOf (rest c' (crS c s l)) = lit.isPrefixOf (rest c s) := by
  rw [ln_rest h, crlf_prefix hk]

theorem ln_slice (s : Sc) (l : Option Str) :
    (sliceFrom c s = .ok (rest c s) ∧ sliceFrom c' (crS c s l) = .ok (crlf (rest c s))) ∨
    (sliceFrom c s = .error .slice ∧ sliceFrom c' (crS c s l) = .error .slice) := by
  have e : sliceFrom c' (crS c s l) = (sliceFrom c s).map crlf := by
    unfold sliceFrom
    rw [h.src, ← crOff_length]
    exact crlf_slice _ _ _
  rw [e]
  cases hs : sliceFrom c s with
  | error e => exact .inr ⟨by rw [(sliceStr_err hs).1], by rw [(sliceStr_err hs).1]; rfl⟩
  | ok r => rw [(sliceFrom_ok hs).1]; exact .inl ⟨rfl, rfl⟩

theorem ln_elementName (s : Sc) (l : Option Str) :
    (∃ n s1, nextElementName c s = .ok (n, s1) ∧ nextElementName c' (crS c s l) = .ok (n, crS c s1 l) ∧
      s1.lastType = s.lastType ∧ (n = none → s1 = s)) ∨
    (nextElementName c s = .error .slice ∧ nextElementName c' (crS c s l) = .error .slice) := by
  unfold nextElementName
  rcases ln_slice h s l with ⟨h1, h2⟩ | ⟨h1, h2⟩
  · rw [h1, h2]
    have f1 : nameFirst c.uni 10 = false := rfl
    have f2 : nameFirst c.uni 13 = false := rfl
    have f3 : nameRest c.uni 10 = false := rfl
    have f4 : nameRest c.uni 13 = false := rfl
    have hn : elementNameLen c.uni (crlf (rest c s)) = elementNameLen c.uni (rest c s) :=
      firstRun_crlf f1 f2 f3 f4 (ln_fit h s)
    have h10 : 10 ∉ (rest c s).take (elementNameLen c.uni (rest c s)) := firstRun_no10 f1 f3 _
    simp only [bind, Except.bind, h.cs, h.uni, hn, crlf_take h10]
    rw [ln_adv s l (n := elementNameLen c.uni (rest c s)) (by rw [List.count_eq_zero.2 h10]; rfl)]
    split
    · exact .inl ⟨_, _, rfl, rfl, rfl, fun _ => rfl⟩
    · exact .inl ⟨_, _, rfl, rfl, rfl, fun h => by cases h⟩
  · rw [h1, h2]
    exact .inr ⟨rfl, rfl⟩

theorem ln_attrName (s : Sc) (l : Option Str) :
    (∃ n s1, nextAttributeName c s = .ok (n, s1) ∧ nextAttributeName c' (crS c s l) = .ok (n, crS c s1 l) ∧
      s1.lastType = s.lastType ∧ (n = none → s1 = s)) ∨
    (nextAttributeName c s = .error .slice ∧ nextAttributeName c' (crS c s l) = .error .slice) := by
  unfold nextAttributeName
  rcases ln_slice h s l with ⟨h1, h2⟩ | ⟨h1, h2⟩
  · rw [h1, h2]
    have hn : attrNameLen (crlf (rest c s)) = attrNameLen (rest c s) :=
      firstRun_crlf rfl rfl rfl rfl (ln_fit h s)
    have h10 : 10 ∉ (rest c s).take (attrNameLen (rest c s)) := firstRun_no10 rfl rfl _
    simp only [bind, Except.bind, h.cs, h.uni, hn, crlf_take h10]
    rw [ln_adv s l (n := attrNameLen (rest c s)) (by rw [List.count_eq_zero.2 h10]; rfl)]
    split
    · exact .inl ⟨_, _, rfl, rfl, rfl, fun _ => rfl⟩
    · exact .inl ⟨_, _, rfl, rfl, rfl, fun h => by cases h⟩
  · rw [h1, h2]
    exact .inr ⟨rfl, rfl⟩

theorem ln_armComment (s : Sc) (l : Option Str) (o : Nat) (hl : s.lastType.isSome = l.isSome) :
    EC c (armComment c s o) (armComment c' (crS c s l) (crOff c.src o)) := by
  unfold armComment
  rw [ln_prefix h s l (by decide), ln_meas h s l (meas_untilLit (by decide) _)]
  split
  · rename_i hp
    rw [ln_adv_prefix s l (by decide) (n := 3) rfl hp]
    exact ⟨l, rfl, fun _ => hl⟩
  · exact ⟨l, rfl, fun _ => hl⟩

theorem ln_armDoctype (s : Sc) (l : Option Str) (o : Nat) (hl : s.lastType.isSome = l.isSome) :
    EC c (armDoctype c s o) (armDoctype c' (crS c s l) (crOff c.src o)) := by
  unfold armDoctype
  rw [ln_meas h s l (meas_untilByte (by decide) _)]
  simp only [ln_peek h s l (k := 62) (by decide)]
  split
  · rename_i hp
    rw [ln_adv_head s l (by decide) hp]
    exact ⟨l, rfl, fun _ => hl⟩
  · exact ⟨l, rfl, fun _ => hl⟩

omit h in
theorem lower_crlf (a : Str) : (crlf a).map lowerByte = crlf (a.map lowerByte) := by
  induction a with
  | nil => rfl
  | cons x a ih =>
    have hx : lowerByte x = 10 ↔ x = 10 := by unfold lowerByte; split <;> omega
    simp only [crlf, List.map_cons, hx]
    split
    · simp only [List.map_cons, ih]; rfl
    · simp only [List.map_cons, ih]

omit h in
theorem doctype_crlf (a : Str) : isDoctype (crlf a) = isDoctype a := by
  unfold isDoctype
  rw [lower_crlf, crlf_prefix (by decide)]

omit h in
theorem doctype_count {a : Str} (hd : isDoctype a = true) : (a.take 8).count 10 = 0 := by
  unfold isDoctype at hd
  have := count_of_prefix (by decide) hd
  rw [List.count_eq_zero] at this ⊢
  intro hm
  apply this
  rw [← List.map_take]
  exact List.mem_map.2 ⟨10, hm, rfl⟩

theorem ln_armContent (s : Sc) (l : Option Str) (o : Nat) (hl : s.lastType.isSome = l.isSome) :
    EC c (armContent c s o) (armContent c' (crS c s l) (crOff c.src o)) := by
  unfold armContent
  rw [ln_meas h s l (meas_untilByte (by decide) _)]
  simp only [ln_peek h s l (k := 60) (by decide)]
  split
  · rename_i h60
    rw [ln_adv_head s l (by decide) h60]
    simp only [ln_peek h (adv s 1) l (k := 47) (by decide), ln_peek h (adv s 1) l (k := 33) (by decide),
      ln_prefix h (adv s 1) l (lit := b!"!--") (by decide)]
    have tail : EC c (if peek c (adv s 1) = some 47 then
          .ok (fin { adv (adv s 1) 1 with state := .AfterOpeningEndTag } o .EndTagOpen none)
        else .ok (fin { adv s 1 with state := .AfterOpeningStartTag } o .StartTagOpen none))
        (if peek c (adv s 1) = some 47 then
          .ok (fin { adv (crS c (adv s 1) l) 1 with state := .AfterOpeningEndTag } (crOff c.src o) .EndTagOpen none)
        else .ok (fin { crS c (adv s 1) l with state := .AfterOpeningStartTag } (crOff c.src o) .StartTagOpen none)) := by
      split
      · rename_i hp
        rw [ln_adv_head (adv s 1) l (by decide) hp]
        exact ⟨l, rfl, fun _ => hl⟩
      · exact ⟨l, rfl, fun _ => hl⟩
    split
    · split
      · rename_i hp
        rw [ln_adv_prefix (adv s 1) l (by decide) (n := 3) rfl hp]
        exact ⟨l, rfl, fun _ => hl⟩
      · rcases ln_slice h (adv s 1) l with ⟨h1, h2⟩ | ⟨h1, h2⟩
        · rw [h1, h2]
          simp only [bind, Except.bind, doctype_crlf]
          split
          · rename_i hd
            rw [ln_adv (adv s 1) l (n := 8) (by rw [doctype_count hd])]
            exact ⟨l, rfl, fun _ => hl⟩
          · exact tail
        · rw [h1, h2]
          rfl
    · exact tail
  · exact ⟨l, rfl, fun _ => hl⟩

theorem ln_armEndTag (s : Sc) (l : Option Str) (o : Nat) (hl : s.lastType.isSome = l.isSome) :
    EC c (armEndTag c s o) (armEndTag c' (crS c s l) (crOff c.src o)) := by
  unfold armEndTag
  dsimp only
  rw [ln_meas h s l (meas_ws _)]
  simp only [h.pseudo, ln_wsPos h s l, ln_peek h s l (k := 62) (by decide), ln_peek h s l (k := 60) (by decide)]
  split
  · exact ⟨l, rfl, fun _ => hl⟩
  · rename_i hw
    rw [ln_adv_nows s l hw]
    split
    · exact ⟨l, rfl, fun _ => hl⟩
    · split
      · exact ⟨l, rfl, fun _ => hl⟩
      · exact ⟨l, rfl, fun _ => hl⟩

theorem ln_armTagRest (s : Sc) (l : Option Str) (o : Nat) (hw : ¬ wsLen (rest c s) > 0)
    (hl : s.lastType.isSome = l.isSome) :
    EC c (armTagRest c s o) (armTagRest c' (crS c s l) (crOff c.src o)) := by
  unfold armTagRest
  have ha : afterStartTag (crS c s l) = afterStartTag s := by
    unfold afterStartTag
    show (if s.lastTag = _ then (if l.isSome = true then _ else _) else _) = _
    rw [hl]
    rfl
  simp only [h.pseudo, ha, ln_prefix h s l (lit := b!"/>") (by decide), ln_peek h s l (k := 62) (by decide),
    ln_peek h s l (k := 60) (by decide)]
  split
  · rename_i hp
    rw [ln_adv_prefix s l (by decide) (n := 2) rfl hp]
    exact ⟨l, rfl, fun _ => hl⟩
  · rw [ln_adv_nows s l hw]
    split
    · exact ⟨l, rfl, fun _ => hl⟩
    · split
      · exact ⟨l, rfl, fun _ => hl⟩
      · exact ⟨l, rfl, fun _ => hl⟩

theorem ln_armTag (s : Sc) (l : Option Str) (o : Nat) (hl : s.lastType.isSome = l.isSome) :
    EC c (armTag c s o) (armTag c' (crS c s l) (crOff c.src o)) := by
  unfold armTag
  dsimp only
  rw [ln_meas h s l (meas_ws _)]
  have hs : (crS c s l).hasSpace = s.hasSpace := rfl
  simp only [ln_wsPos h s l, hs]
  split
  · exact ⟨l, rfl, fun _ => hl⟩
  · rename_i hw
    split
    · rcases ln_attrName h s l with ⟨n, s1, h1, h2, h3, h4⟩ | ⟨h1, h2⟩
      · rw [h1, h2]
        have hp := ln_peek h { s1 with lastAttr := n } l (k := 61) (by decide)
        have hty : ({ crS c s1 l with lastAttr := n } : Sc) = crS c { s1 with lastAttr := n } l := rfl
        simp only [bind, Except.bind, hty, hp]
        split
        · exact ⟨l, rfl, fun _ => by show s1.lastType.isSome = _; rw [h3, hl]⟩
        · rename_i hn
          have hs1 := h4 (by simpa using hn)
          subst hs1
          split
          · exact ln_armTagRest h { s1 with lastAttr := n, hasSpace := false } l o hw hl
          · exact ln_armTagRest h { s1 with lastAttr := n } l o hw hl
      · rw [h1, h2]
        rfl
    · exact ln_armTagRest h s l o hw hl

theorem ln_internalEndTag (s : Sc) (l : Option Str) (hl : s.lastType.isSome = l.isSome) :
    EC c (internalEndTag c s) (internalEndTag c' (crS c s l)) := by
  unfold internalEndTag
  rw [ln_eos h]
  split
  · exact ⟨l, rfl, fun _ => hl⟩
  · exact ln_armEndTag h s l _ hl

theorem ln_internalTag (s : Sc) (l : Option Str) (hl : s.lastType.isSome = l.isSome) :
    EC c (internalTag c s) (internalTag c' (crS c s l)) := by
  unfold internalTag
  rw [ln_eos h]
  split
  · exact ⟨l, rfl, fun _ => hl⟩
  · exact ln_armTag h s l _ hl

theorem ln_internalContent (s : Sc) (l : Option Str) (hl : s.lastType.isSome = l.isSome) :
    EC c (internalContent c s) (internalContent c' (crS c s l)) := by
  unfold internalContent
  rw [ln_eos h]
  split
  · exact ⟨l, rfl, fun _ => hl⟩
  · exact ln_armContent h s l _ hl

theorem ln_armAfterOpeningEndTag (s : Sc) (l : Option Str) (o : Nat) (hl : s.lastType.isSome = l.isSome) :
    EC c (armAfterOpeningEndTag c s o) (armAfterOpeningEndTag c' (crS c s l) (crOff c.src o)) := by
  unfold armAfterOpeningEndTag
  rcases ln_elementName h s l with ⟨n, s1, h1, h2, h3, _⟩ | ⟨h1, h2⟩
  · rw [h1, h2]
    have hl1 : s1.lastType.isSome = l.isSome := by rw [h3, hl]
    have hty : ({ crS c s1 l with state := SS.WithinEndTag } : Sc) = crS c { s1 with state := SS.WithinEndTag } l := rfl
    dsimp only [bind, Except.bind]
    rw [hty, ln_meas h s1 l (meas_ws _), ln_meas h { s1 with state := SS.WithinEndTag } l (meas_untilByte (by decide) _)]
    simp only [ln_wsPos h s1 l]
    split
    · exact ⟨l, rfl, fun _ => hl1⟩
    · split
      · exact ⟨l, rfl, fun _ => hl1⟩
      · show EC c _ (if crOff c.src o < crOff c.src _ then _ else _)
        simp only [crOff_lt]
        split
        · exact ⟨l, rfl, fun _ => hl1⟩
        · exact ln_internalEndTag h (adv { s1 with state := SS.WithinEndTag } _) l hl1
  · rw [h1, h2]
    rfl

theorem ln_noName (s : Sc) (o : Nat) (hl : s.lastType = none) :
    EC c (if wsLen (rest c s) > 0 then .ok (fin (adv s (wsLen (rest c s))) o .Whitespace (some .nameMustFollow))
      else
        if o < (adv { s with state := SS.WithinTag } (untilByte 62 (rest c { s with state := SS.WithinTag }))).pos then
          .ok (fin (adv { s with state := SS.WithinTag } (untilByte 62 (rest c { s with state := SS.WithinTag }))) o .Unknown
            (some .startTagNameExpected))
        else internalTag c (adv { s with state := SS.WithinTag } (untilByte 62 (rest c { s with state := SS.WithinTag }))))
    (if wsLen (rest c' (crS c s none)) > 0 then .ok (fin (adv (crS c s none) (wsLen (rest c' (crS c s none)))) (crOff c.src o)
        .Whitespace (some .nameMustFollow))
      else
        if crOff c.src o < (adv (crS c { s with state := SS.WithinTag } none)
            (untilByte 62 (rest c' (crS c { s with state := SS.WithinTag } none)))).pos then
          .ok (fin (adv (crS c { s with state := SS.WithinTag } none)
            (untilByte 62 (rest c' (crS c { s with state := SS.WithinTag } none)))) (crOff c.src o) .Unknown
            (some .startTagNameExpected))
        else internalTag c' (adv (crS c { s with state := SS.WithinTag } none)
            (untilByte 62 (rest c' (crS c { s with state := SS.WithinTag } none))))) := by
  have hl' : s.lastType.isSome = (none : Option Str).isSome := by rw [hl]
  rw [ln_meas h s none (meas_ws _), ln_meas h { s with state := SS.WithinTag } none (meas_untilByte (by decide) _)]
  simp only [ln_wsPos h s none]
  split
  · exact ⟨none, rfl, fun _ => hl'⟩
  · show EC c _ (if crOff c.src o < crOff c.src _ then _ else _)
    simp only [crOff_lt]
    split
    · exact ⟨none, rfl, fun _ => hl'⟩
    · exact ln_internalTag h (adv { s with state := SS.WithinTag } _) none hl'

theorem ln_armAfterOpeningStartTag (s : Sc) (l : Option Str) (o : Nat) :
    EC c (armAfterOpeningStartTag c s o) (armAfterOpeningStartTag c' (crS c s l) (crOff c.src o)) := by
  unfold armAfterOpeningStartTag
  rcases ln_elementName h s l with ⟨n, s1, h1, h2, h3, _⟩ | ⟨h1, h2⟩
  · rw [h1, h2]
    dsimp only [bind, Except.bind]
    split
    · exact ⟨none, rfl, fun _ => rfl⟩
    · exact ln_noName h { s1 with lastTag := n, lastType := none, lastAttr := none } o rfl
  · rw [h1, h2]
    rfl

theorem ln_armAfterAttributeName (s : Sc) (l : Option Str) (o : Nat) (hl : s.lastType.isSome = l.isSome) :
    EC c (armAfterAttributeName c s o) (armAfterAttributeName c' (crS c s l) (crOff c.src o)) := by
  unfold armAfterAttributeName
  dsimp only
  rw [ln_meas h s l (meas_ws _)]
  simp only [ln_wsPos h s l, ln_peek h s l (k := 61) (by decide)]
  split
  · exact ⟨l, rfl, fun _ => hl⟩
  · split
    · rename_i hp
      rw [ln_adv_head s l (by decide) hp]
      exact ⟨l, rfl, fun _ => hl⟩
    · exact ln_internalTag h { s with state := .WithinTag } l hl

omit h in
theorem crlf_nonEmpty (v : Str) : (nonEmpty (crlf v)).isSome = (nonEmpty v).isSome := by
  unfold nonEmpty
  cases v with
  | nil => rfl
  | cons b v => rw [crlf_length]; simp

theorem ln_rememberQuoted (s : Sc) (l : Option Str) (o : Nat) {k : Nat} (ho : o < s.pos) (hle : s.pos ≤ c.src.length)
    (hk : NoEnd k) (hq : c.src[o]? = some k) (hend : s.pos < c.src.length → c.src[s.pos - 1]? ≠ some 10)
    (hl : s.lastType.isSome = l.isSome) :
    EC c (rememberQuoted c s o) (rememberQuoted c' (crS c s l) (crOff c.src o)) := by
  unfold rememberQuoted
  show EC c _ (if s.lastAttr = some b!"type" then (subU (crOff c.src s.pos) 1 >>= _) else _)
  split
  · have ho1 : crOff c.src o + 1 = crOff c.src (o + 1) := by
      rw [crOff_add]
      have hd : (c.src.drop o).head? = some k := by simpa using hq
      cases hx : c.src.drop o with
      | nil => rw [hx] at hd; cases hd
      | cons x t => rw [hx] at hd; cases hd; simp [List.count_cons, hk.1]
    have hpos := crOff_add c.src (s.pos - 1) 1
    rw [show s.pos - 1 + 1 = s.pos by omega] at hpos
    have e1 : subU s.pos 1 = .ok (s.pos - 1) := if_pos (by omega)
    have e2 : subU (crOff c.src s.pos) 1 = .ok (crOff c.src s.pos - 1) := if_pos (by omega)
    rw [e1, e2, ho1, h.src]
    simp only [bind, Except.bind]
    by_cases h10 : c.src[s.pos - 1]? = some 10
    · have hge : ¬ s.pos < c.src.length := fun hlt => hend hlt h10
      have hne : o ≠ s.pos - 1 := by rintro rfl; rw [hq] at h10; cases h10; exact hk.1 rfl
      have hm : crOff c.src (o + 1) ≤ crOff c.src (s.pos - 1) := crOff_le.2 (by omega)
      rw [if_neg (by omega), if_neg (by omega)]
      have hlast := crlf_last c.src (o := s.pos) (by omega) hle
      rw [h10] at hlast
      have b1 : isBoundary c.src (s.pos - 1) = true := isBoundary_of_get h10 rfl
      have b2 : isBoundary (crlf c.src) (crOff c.src s.pos - 1) = true := isBoundary_of_get hlast rfl
      by_cases hb : isBoundary c.src (o + 1) = true
      · rw [sliceStr_eq (by omega) hb b1, sliceStr_eq (by omega) (by rw [crlf_boundary]; exact hb) b2]
        exact ⟨_, rfl, fun hlt => absurd hlt hge⟩
      · have f1 : sliceStr c.src (o + 1) (s.pos - 1) = .error .slice := by
          cases hx : sliceStr c.src (o + 1) (s.pos - 1) with
          | ok r => exact absurd (sliceStr_ok hx).2.2.1 hb
          | error e => rw [(sliceStr_err hx).1]
        have f2 : sliceStr (crlf c.src) (crOff c.src (o + 1)) (crOff c.src s.pos - 1) = .error .slice := by
          cases hx : sliceStr (crlf c.src) (crOff c.src (o + 1)) (crOff c.src s.pos - 1) with
          | ok r =>
            have := (sliceStr_ok hx).2.2.1
            rw [crlf_boundary] at this
            exact absurd this hb
          | error e => rw [(sliceStr_err hx).1]
        rw [f1, f2]
        rfl
    · have hm1 : crOff c.src s.pos - 1 = crOff c.src (s.pos - 1) := by
        have hc : ((c.src.drop (s.pos - 1)).take 1).count 10 = 0 := by
          cases hx : c.src.drop (s.pos - 1) with
          | nil => rfl
          | cons x t =>
            have : (c.src.drop (s.pos - 1)).head? = some x := by rw [hx]; rfl
            have hx' : c.src[s.pos - 1]? = some x := by simpa using this
            have : x ≠ 10 := by rintro rfl; exact h10 hx'
            simp [List.count_cons, this]
        omega
      rw [hm1]
      simp only [gt_iff_lt, crOff_lt, crlf_slice]
      by_cases hlt : s.pos - 1 < o + 1
      · rw [if_pos hlt, if_pos hlt]
        cases sliceStr c.src (s.pos - 1) (o + 1) with
        | error e => rfl
        | ok v => exact ⟨_, rfl, fun _ => (crlf_nonEmpty v).symm⟩
      · rw [if_neg hlt, if_neg hlt]
        cases sliceStr c.src (o + 1) (s.pos - 1) with
        | error e => rfl
        | ok v => exact ⟨_, rfl, fun _ => (crlf_nonEmpty v).symm⟩
  · exact ⟨l, rfl, fun _ => hl⟩

omit h in
theorem EC.map {r r' : R Sc} (hr : EC c r r') (f g : Sc → Sc)
    (hf : ∀ s l, g (crS c s l) = crS c (f s) l ∧ (f s).lastType = s.lastType ∧ (f s).pos = s.pos) :
    EC c (r >>= fun s => .ok (f s)) (r' >>= fun s => .ok (g s)) := by
  cases r with
  | error e => cases r' with
    | error e' => exact hr
    | ok s => exact hr.elim
  | ok s => cases r' with
    | error e' => exact hr.elim
    | ok s' =>
      obtain ⟨l, rfl, h2⟩ := hr
      exact ⟨l, (hf s l).1, by rw [(hf s l).2.1, (hf s l).2.2]; exact h2⟩

theorem ln_quoted (s : Sc) (l : Option Str) (k : Nat) (hk : NoEnd k) (hp : peek c s = some k)
    (hl : s.lastType.isSome = l.isSome) :
    EC c (do
      let s1 := adv s 1
      let n := untilByte k (rest c s1)
      let s2 := adv s1 n
      let s3 := if peek c s2 = some k then adv s2 1 else s2
      let s4 ← rememberQuoted c s3 s.pos
      .ok (fin { s4 with state := .WithinTag, hasSpace := false } s.pos .AttributeValue none))
    (do
      let s1 := adv (crS c s l) 1
      let n := untilByte k (rest c' s1)
      let s2 := adv s1 n
      let s3 := if peek c' s2 = some k then adv s2 1 else s2
      let s4 ← rememberQuoted c' s3 (crOff c.src s.pos)
      .ok (fin { s4 with state := .WithinTag, hasSpace := false } (crOff c.src s.pos) .AttributeValue none)) := by
  dsimp only
  rw [ln_adv_head s l hk hp, ln_meas h (adv s 1) l (meas_untilByte hk _)]
  simp only [ln_peek h (adv (adv s 1) _) l hk]
  have hlen : s.pos < c.src.length := (List.getElem?_eq_some_iff.1 hp).1
  have hu := untilByte_le k (rest c (adv s 1))
  rw [rest_length] at hu
  have hpos : (adv s 1).pos = s.pos + 1 := rfl
  generalize hs2 : adv (adv s 1) (untilByte k (rest c (adv s 1))) = s2
  have hp2 : s2.pos = s.pos + 1 + untilByte k (rest c (adv s 1)) := by rw [← hs2]; rfl
  have hl2 : s2.lastType.isSome = l.isSome := by rw [← hs2]; exact hl
  have fn := fun (s4 : Sc) (l4 : Option Str) =>
    (⟨rfl, rfl, rfl⟩ : (fin { crS c s4 l4 with state := .WithinTag, hasSpace := false } (crOff c.src s.pos) .AttributeValue none : Sc) =
      crS c (fin { s4 with state := .WithinTag, hasSpace := false } s.pos .AttributeValue none) l4 ∧
      (fin { s4 with state := .WithinTag, hasSpace := false } s.pos .AttributeValue none).lastType = s4.lastType ∧
      (fin { s4 with state := .WithinTag, hasSpace := false } s.pos .AttributeValue none).pos = s4.pos)
  by_cases h2 : peek c s2 = some k
  · rw [if_pos h2, if_pos h2, ln_adv_head s2 l hk h2]
    have hlt : s2.pos < c.src.length := (List.getElem?_eq_some_iff.1 h2).1
    refine EC.map (ln_rememberQuoted h (adv s2 1) l s.pos (k := k) ?_ ?_ hk hp ?_ hl2) _ _ fn
    · show s.pos < s2.pos + 1; omega
    · show s2.pos + 1 ≤ _; omega
    · intro _
      show c.src[s2.pos + 1 - 1]? ≠ _
      rw [Nat.add_sub_cancel]
      have h2' : c.src[s2.pos]? = some k := h2
      rw [h2']
      intro e; cases e; exact hk.1 rfl
  · rw [if_neg h2, if_neg h2]
    refine EC.map (ln_rememberQuoted h s2 l s.pos (k := k) ?_ ?_ hk hp ?_ hl2) _ _ fn
    · omega
    · omega
    · intro hlt
      refine absurd ?_ h2
      have := untilByte_get (c := k) (s := rest c (adv s 1)) (by rw [rest_length]; omega)
      rw [← this]
      unfold peek rest
      rw [List.getElem?_drop, hp2, hpos]
      rfl

theorem ln_armQuotedValue (s : Sc) (l : Option Str) (hl : s.lastType.isSome = l.isSome) :
    EC c (armQuotedValue c s s.pos) (armQuotedValue c' (crS c s l) (crOff c.src s.pos)) := by
  have h39 := ln_peek h s l (k := 39) (by decide)
  have h34 := ln_peek h s l (k := 34) (by decide)
  by_cases p39 : peek c s = some 39
  · have := ln_quoted h s l 39 (by decide) p39 hl
    rw [p39, eq_true rfl, eq_iff_iff, iff_true] at h39
    unfold armQuotedValue
    rw [p39, h39]
    exact this
  · by_cases p34 : peek c s = some 34
    · have := ln_quoted h s l 34 (by decide) p34 hl
      rw [p34, eq_true rfl, eq_iff_iff, iff_true] at h34
      unfold armQuotedValue
      rw [p34, h34]
      exact this
    · have key : ∀ (c : Cfg) (s : Sc) (o : Nat), peek c s ≠ some 39 → peek c s ≠ some 34 →
          armQuotedValue c s o = internalTag c { s with state := .WithinTag, hasSpace := false } := by
        intro c s o h1 h2
        unfold armQuotedValue
        split
        · rename_i ch hch
          rw [hch] at h1 h2
          rw [if_neg]
          rintro (rfl | rfl)
          · exact h1 rfl
          · exact h2 rfl
        · rfl
      rw [key c s _ p39 p34, key c' (crS c s l) _ (by rw [Ne, h39]; exact p39) (by rw [Ne, h34]; exact p34)]
      exact ln_internalTag h { s with state := .WithinTag, hasSpace := false } l hl

/-- What is done with an unquoted value. -/
def unquotedArm (c : Cfg) (s : Sc) (o : Nat) : R Sc := do
  let n := unquotedLen (rest c s)
  let q := peek c (adv s n) == some 39 || peek c (adv s n) == some 34
  let m := if q then n + 1 else n
  let v ← extendValue c q (s.pos + m) ((rest c s).take n)
  let t := if s.lastAttr = some b!"type" then nonEmpty v else s.lastType
  .ok (fin { adv s m with state := .WithinTag, hasSpace := false, lastType := t } o .AttributeValue none)

omit h in
theorem unquotedArm_eq (c : Cfg) (s : Sc) (o : Nat) (hb : sliceFrom c s = .ok (rest c s)) (hw : ¬ wsLen (rest c s) > 0)
    (hn : unquotedLen (rest c s) ≠ 0) : armBeforeAttributeValue c s o = unquotedArm c s o := by
  unfold armBeforeAttributeValue unquotedArm
  have h62 : (peek c s == some 62) = false := by
    rw [beq_eq_false_iff_ne, peek_eq_head]
    intro h
    obtain ⟨b, t, he, hc⟩ := firstRunLen_head (Nat.pos_of_ne_zero hn)
    rw [he] at h
    cases h
    cases hc
  have hle := unquotedLen_le (rest c s)
  have hvl : ((rest c s).take (unquotedLen (rest c s))).length = unquotedLen (rest c s) := by
    rw [List.length_take]; omega
  simp only [if_neg hw, hb, bind, Except.bind, if_neg hn, h62, Bool.false_and, trimValue, Bool.false_eq_true, if_false]
  generalize (peek c (adv s (unquotedLen (rest c s))) == some 39 || peek c (adv s (unquotedLen (rest c s))) == some 34) = q
  cases q with
  | false =>
    simp only [Bool.false_eq_true, if_false, extendValue]
    rw [if_pos (by omega)]
    by_cases ht : s.lastAttr = some b!"type"
    · rw [if_pos ht, if_pos (show (adv s (unquotedLen (rest c s))).lastAttr = _ from ht)]
    · rw [if_neg ht, if_neg (show ¬ (adv s (unquotedLen (rest c s))).lastAttr = _ from ht)]; rfl
  | true =>
    simp only [if_true]
    have hpp : (adv (adv s (unquotedLen (rest c s))) 1).pos = s.pos + (unquotedLen (rest c s) + 1) := rfl
    rw [hpp]
    cases hx : extendValue c true (s.pos + (unquotedLen (rest c s) + 1)) ((rest c s).take (unquotedLen (rest c s))) with
    | error e => rfl
    | ok v =>
      have hv : v.length > 0 := by
        unfold extendValue at hx
        simp only [if_true] at hx
        obtain ⟨a, h1, hx⟩ := bind_ok hx
        obtain ⟨a2, h2, hx⟩ := bind_ok hx
        have := sliceStr_ok hx
        rw [hvl] at h1
        have e1 := subU_ok h1
        have e2 := subU_ok h2
        rw [this.2.2.2.2, bytesIn_length this.2.1]
        omega
      simp only
      rw [if_pos hv]
      by_cases ht : s.lastAttr = some b!"type"
      · rw [if_pos ht, if_pos (show (adv (adv s (unquotedLen (rest c s))) 1).lastAttr = _ from ht)]; rfl
      · rw [if_neg ht, if_neg (show ¬ (adv (adv s (unquotedLen (rest c s))) 1).lastAttr = _ from ht)]; rfl

theorem ln_armBeforeAttributeValue (s : Sc) (l : Option Str) (hl : s.lastType.isSome = l.isSome) :
    EC c (armBeforeAttributeValue c s s.pos) (armBeforeAttributeValue c' (crS c s l) (crOff c.src s.pos)) := by
  by_cases hw : wsLen (rest c s) > 0
  · have hw' : wsLen (rest c' (crS c s l)) > 0 := by rw [ln_wsPos h]; exact hw
    unfold armBeforeAttributeValue
    dsimp only
    rw [if_pos hw, if_pos hw', ln_meas h s l (meas_ws _)]
    exact ⟨l, rfl, fun _ => hl⟩
  · have hw' : ¬ wsLen (rest c' (crS c s l)) > 0 := by rw [ln_wsPos h]; exact hw
    rcases ln_slice h s l with ⟨h1, h2⟩ | ⟨h1, h2⟩
    · have hn : unquotedLen (crlf (rest c s)) = unquotedLen (rest c s) :=
        firstRun_crlf rfl rfl rfl rfl (ln_fit h s)
      have h10 : 10 ∉ (rest c s).take (unquotedLen (rest c s)) := firstRun_no10 rfl rfl _
      have hc0 := List.count_eq_zero.2 h10
      rw [← ln_rest h s l] at h2
      by_cases h0 : unquotedLen (rest c s) = 0
      · unfold armBeforeAttributeValue
        dsimp only
        rw [if_neg hw, if_neg hw', h1, h2, ln_rest h]
        simp only [bind, Except.bind, hn]
        rw [if_pos h0, if_pos h0]
        exact ln_armQuotedValue h s l hl
      · rw [unquotedArm_eq c s _ h1 hw h0, unquotedArm_eq c' _ _ h2 hw' (by rw [ln_rest h, hn]; exact h0)]
        unfold unquotedArm
        rw [ln_rest h, hn]
        dsimp only
        rw [crlf_take h10]
        have ha := ln_adv s l (n := unquotedLen (rest c s)) (k := unquotedLen (rest c s)) (by rw [hc0]; rfl)
        have hq : (peek c' (adv (crS c s l) (unquotedLen (rest c s))) == some 39 ||
            peek c' (adv (crS c s l) (unquotedLen (rest c s))) == some 34) =
            (peek c (adv s (unquotedLen (rest c s))) == some 39 || peek c (adv s (unquotedLen (rest c s))) == some 34) := by
          rw [ha, Bool.eq_iff_iff]
          simp only [Bool.or_eq_true, beq_iff_eq, ln_peek h (adv s _) l (k := 39) (by decide),
            ln_peek h (adv s _) l (k := 34) (by decide)]
        rw [hq]
        generalize hqq : (peek c (adv s (unquotedLen (rest c s))) == some 39 ||
          peek c (adv s (unquotedLen (rest c s))) == some 34) = q
        have hle := unquotedLen_le (rest c s)
        have hvl : ((rest c s).take (unquotedLen (rest c s))).length = unquotedLen (rest c s) := by
          rw [List.length_take]; omega
        cases q with
        | false =>
          simp only [Bool.false_eq_true, if_false, extendValue, bind, Except.bind, ha]
          refine ⟨_, rfl, fun _ => ?_⟩
          show (if s.lastAttr = some b!"type" then _ else s.lastType).isSome =
            (if s.lastAttr = some b!"type" then _ else l).isSome
          split
          · rfl
          · exact hl
        | true =>
          simp only [if_true]
          have hquote : ∃ k, NoEnd k ∧ peek c (adv s (unquotedLen (rest c s))) = some k := by
            simp only [Bool.or_eq_true, beq_iff_eq] at hqq
            rcases hqq with e | e
            · exact ⟨_, by decide, e⟩
            · exact ⟨_, by decide, e⟩
          obtain ⟨k, hk, hpk⟩ := hquote
          have ha1 : adv (crS c s l) (unquotedLen (rest c s) + 1) = crS c (adv s (unquotedLen (rest c s) + 1)) l := by
            have := ln_adv_head (adv s (unquotedLen (rest c s))) l hk hpk
            rw [← ha] at this
            exact this
          have hpos : crOff c.src s.pos + (unquotedLen (rest c s) + 1) = crOff c.src (s.pos + (unquotedLen (rest c s) + 1)) :=
            congrArg Sc.pos ha1
          have hex : ∀ (c0 : Cfg) (p : Nat) (v : Str) (n : Nat), v.length = n →
              extendValue c0 true (p + (n + 1)) v = sliceStr c0.src p (p + (n + 1)) := by
            intro c0 p v n hv
            unfold extendValue
            simp only [if_true]
            rw [hv]
            have e1 : subU (p + (n + 1)) n = .ok (p + 1) := by
              unfold subU; rw [if_pos (by omega)]; congr 1; omega
            have e2 : subU (p + 1) 1 = .ok p := by
              unfold subU; rw [if_pos (by omega)]; congr 1
            simp only [bind, Except.bind, e1, e2]
          rw [hex c _ _ _ hvl]
          show EC c _ (extendValue c' true (crOff c.src s.pos + (unquotedLen (rest c s) + 1)) _ >>= _)
          rw [hex c' _ _ _ hvl, hpos, h.src, crlf_slice, ha1]
          cases sliceStr c.src s.pos (s.pos + (unquotedLen (rest c s) + 1)) with
          | error e => rfl
          | ok v =>
            refine ⟨_, rfl, fun _ => ?_⟩
            show (if s.lastAttr = some b!"type" then _ else s.lastType).isSome =
              (if s.lastAttr = some b!"type" then _ else l).isSome
            split
            · exact (crlf_nonEmpty v).symm
            · exact hl
    · unfold armBeforeAttributeValue
      dsimp only
      rw [if_neg hw, if_neg hw', h1, h2]
      rfl

/-! ### Raw content -/

omit h in
theorem meas_tail {r : Str} (hr : Fit r) : Meas scriptTailLen r := by
  have h1 : runLen isSpaceCP (crlf r) = crOff r (runLen isSpaceCP r) := meas_runLen rfl hr
  show scriptTailLen (crlf r) = crOff r (scriptTailLen r)
  unfold scriptTailLen
  simp only [h1, crlf_drop]
  generalize runLen isSpaceCP r = n
  have hx : ∀ (a : Str) (k : Nat), NoEnd k → a.head? = some k → (crlf a).drop 1 = crlf (a.drop 1) ∧ (a.take 1).count 10 = 0 := by
    intro a k hk ha
    cases a with
    | nil => cases ha
    | cons x t =>
      cases ha
      simp [crlf, hk.1, List.count_cons]
  have h62 : ∀ a : Str, ((crlf a).head? = some 62) = (a.head? = some 62) := fun a => crlf_head_eq (by decide)
  simp only [crlf_head_eq (k := 47) (by decide)]
  by_cases h47 : (r.drop n).head? = some 47
  · have e47 := hx _ 47 (by decide) h47
    simp only [if_pos h47, e47.1, h62]
    by_cases h6 : ((r.drop n).drop 1).head? = some 62
    · have e6 := hx _ 62 (by decide) h6
      rw [if_pos h6, crOff_add, crOff_add, ← List.drop_drop, e47.2, e6.2]
    · simp only [if_neg h6, Nat.add_zero]
      rw [crOff_add, e47.2]
  · simp only [if_neg h47, List.drop_zero, h62, Nat.add_zero]
    by_cases h6 : (r.drop n).head? = some 62
    · have e6 := hx _ 62 (by decide) h6
      rw [if_pos h6, crOff_add, e6.2]
    · rw [if_neg h6, Nat.add_zero, Nat.add_zero]

omit h in
theorem match_crlf {r : Str} (hr : Fit r) :
    scriptMatchAt (crlf r) = (scriptMatchAt r).map fun (k, n) => (k, crOff r n) := by
  unfold scriptMatchAt
  simp only [crlf_prefix (lit := b!"<!--") (by decide), crlf_prefix (lit := b!"-->") (by decide),
    crlf_prefix (lit := b!"<script") (by decide), crlf_prefix (lit := b!"</script") (by decide)]
  have tl : ∀ (lit : Str) (n : Nat), (∀ k ∈ lit, NoEnd k) → lit.length = n → lit.isPrefixOf r = true →
      n = crOff r n ∧ n + scriptTailLen ((crlf r).drop n) = crOff r (n + scriptTailLen (r.drop n)) := by
    intro lit n hk hn hp
    subst hn
    have h0 := count_of_prefix hk hp
    have e : crOff r lit.length = lit.length := by unfold crOff; rw [h0]; rfl
    refine ⟨e.symm, ?_⟩
    have hd := crlf_drop r lit.length
    rw [e] at hd
    rw [hd, crOff_add, e]
    have := meas_tail (hr.drop lit.length)
    unfold Meas at this
    omega
  split
  · rename_i hp
    rw [Option.map_some, ← (tl b!"<!--" 4 (by decide) rfl hp).1]
  · split
    · rename_i hp
      rw [Option.map_some, ← (tl b!"-->" 3 (by decide) rfl hp).1]
    · split
      · rename_i hp
        rw [Option.map_some, (tl b!"<script" 7 (by decide) rfl hp).2]
      · split
        · rename_i hp
          rw [Option.map_some, (tl b!"</script" 8 (by decide) rfl hp).2]
        · rfl

omit h in
theorem find_crlf {r : Str} (hr : Fit r) :
    scriptFind (crlf r) = (scriptFind r).map fun (k, i, n) => (k, crOff r i, crOff (r.drop i) n) := by
  induction r with
  | nil => rfl
  | cons b t ih =>
    have ih := ih hr.tail
    have hm := match_crlf hr
    have step : ∀ (x : Nat), x ≠ 60 → x ≠ 45 → ∀ y, scriptFind (x :: y) = (scriptFind y).map fun (k, i, n) => (k, i + 1, n) := by
      intro x h1 h2 y
      have hz : scriptMatchAt (x :: y) = none := by
        have e1 : (60 == x) = false := by simp; omega
        have e2 : (45 == x) = false := by simp; omega
        unfold scriptMatchAt
        simp only [List.isPrefixOf, e1, e2, Bool.false_and, Bool.false_eq_true, if_false]
      rw [scriptFind, hz]
    by_cases hb : b = 10
    · subst hb
      have e : crlf (10 :: t) = 13 :: 10 :: crlf t := by simp [crlf]
      rw [e, step 13 (by decide) (by decide), step 10 (by decide) (by decide), step 10 (by decide) (by decide), ih]
      cases scriptFind t with
      | none => rfl
      | some x =>
        obtain ⟨k, i, n⟩ := x
        simp only [Option.map_some, Option.some.injEq, Prod.mk.injEq, true_and, List.drop_succ_cons, and_true]
        unfold crOff
        rw [List.take_succ_cons, List.count_cons_self]
        omega
    · have e : crlf (b :: t) = b :: crlf t := by simp [crlf, hb]
      rw [e] at hm ⊢
      rw [scriptFind, scriptFind, hm]
      cases scriptMatchAt (b :: t) with
      | some x =>
        obtain ⟨k, n⟩ := x
        simp [crOff_zero]
      | none =>
        simp only [Option.map_none, ih]
        cases scriptFind t with
        | none => rfl
        | some x =>
          obtain ⟨k, i, n⟩ := x
          simp only [Option.map_some, Option.some.injEq, Prod.mk.injEq, true_and, List.drop_succ_cons, and_true]
          unfold crOff
          rw [List.take_succ_cons, List.count_cons_of_ne hb]
          omega

/-- The end of the loop, at the same place of the text with `\r\n`. -/
def crEnd (c : Cfg) : ScriptEnd → ScriptEnd
  | .noMatch => .noMatch
  | .at p => .at (crOff c.src p)

theorem ln_scriptLoop (f f' st pos : Nat) (hf : c.src.length - pos < f) (hf' : c'.src.length - crOff c.src pos < f') :
    scriptLoop c' f' st (crOff c.src pos) = (scriptLoop c f st pos).map (crEnd c) := by
  induction f generalizing f' st pos with
  | zero => omega
  | succ f ih =>
    cases f' with
    | zero => omega
    | succ f' =>
      unfold scriptLoop
      have hlen : c'.src.length = crOff c.src c.src.length := by rw [h.src, crOff_length]
      simp only [hlen, crOff_le] at hf' ⊢
      split
      · rfl
      · rename_i hpos
        rw [h.src, crlf_slice]
        cases hs : sliceStr c.src pos c.src.length with
        | error e => rfl
        | ok r =>
          have hr : r = c.src.drop pos := by
            have := (sliceStr_ok hs).2.2.2.2
            rw [this, bytesIn_to_end]
          simp only [bind, Except.bind, Except.map]
          rw [find_crlf (r := r) (by rw [hr]; exact h.fit.drop pos)]
          cases hfd : scriptFind r with
          | none => rfl
          | some x =>
            obtain ⟨k, i, n⟩ := x
            have hle := scriptFind_le hfd
            have hp1 : crOff c.src pos + crOff r i = crOff c.src (pos + i) := by
              rw [crOff_add, ← hr]; unfold crOff; omega
            have hp2 : crOff c.src (pos + i) + crOff (r.drop i) n = crOff c.src (pos + i + n) := by
              have e := crOff_add c.src (pos + i) n
              rw [← List.drop_drop, ← hr] at e
              rw [e]
              unfold crOff; omega
            have hlt : crOff c.src pos < crOff c.src (pos + i + n) := crOff_lt.2 (by omega)
            have hlt2 : crOff c.src pos < crOff c.src c.src.length := crOff_lt.2 (by omega)
            have g1 : c.src.length - (pos + i + n) < f := by omega
            have g2 : c'.src.length - crOff c.src (pos + i + n) < f' := by rw [hlen]; omega
            simp only [Option.map_some, hp1, hp2]
            cases k with
            | commentOpen => exact ih _ _ _ g1 g2
            | commentClose => exact ih _ _ _ g1 g2
            | scriptOpen => exact ih _ _ _ g1 g2
            | scriptClose =>
              simp only
              split
              · exact ih _ _ _ g1 g2
              · have a1 : subU (pos + i + n) n = .ok (pos + i) := by
                  unfold subU; rw [if_pos (by omega)]; congr 1; omega
                have a2 : subU (crOff c.src (pos + i + n)) (crOff (r.drop i) n) = .ok (crOff c.src (pos + i)) := by
                  unfold subU; rw [if_pos (by omega)]; congr 1; omega
                rw [a1, a2]; rfl

theorem ln_armScript (s : Sc) (l : Option Str) (o : Nat) (hl : s.lastType.isSome = l.isSome) :
    EC c (armScript c s o) (armScript c' (crS c s l) (crOff c.src o)) := by
  unfold armScript
  show EC c _ (scriptLoop c' (c'.src.length - crOff c.src s.pos + 1) 1 (crOff c.src s.pos) >>= _)
  rw [ln_scriptLoop h (c.src.length - s.pos + 1) _ _ _ (by omega) (by omega)]
  cases scriptLoop c (c.src.length - s.pos + 1) 1 s.pos with
  | error e => exact rfl
  | ok r =>
    cases r with
    | noMatch =>
      refine ⟨l, ?_, fun _ => hl⟩
      show fin (goToEnd c' (crS c s l)) (crOff c.src o) .Script none = _
      unfold goToEnd
      rw [h.src, ← crOff_length]
      rfl
    | «at» p =>
      show EC c (if o < p then _ else _) (if crOff c.src o < crOff c.src p then _ else _)
      simp only [crOff_lt]
      split
      · exact ⟨l, rfl, fun _ => hl⟩
      · exact ln_internalContent h { s with pos := p, state := .WithinContent } l hl

theorem ln_armStyle (s : Sc) (l : Option Str) (o : Nat) (hl : s.lastType.isSome = l.isSome) :
    EC c (armStyle c s o) (armStyle c' (crS c s l) (crOff c.src o)) := by
  unfold armStyle
  rcases ln_slice h s l with ⟨h1, h2⟩ | ⟨h1, h2⟩
  · rw [h1, h2, ← ln_rest h s l]
    dsimp only [bind, Except.bind]
    rw [ln_meas h s l (meas_untilLit (by decide) _)]
    show EC c _ (if crOff c.src o < crOff c.src _ then _ else _)
    simp only [crOff_lt]
    split
    · exact ⟨l, rfl, fun _ => hl⟩
    · exact ln_internalContent h { adv s (untilLit b!"</style" (rest c s)) with state := .WithinContent } l hl
  · rw [h1, h2]
    rfl

theorem ln_scan (s : Sc) (l : Option Str) (hl : s.pos < c.src.length → s.lastType.isSome = l.isSome) :
    EC c (scan c s) (scan c' (crS c s l)) := by
  rw [scan_eq_internalScan, scan_eq_internalScan]
  unfold internalScan
  rw [ln_eos h]
  split
  · rename_i he
    refine ⟨l, rfl, fun hlt => hl hlt⟩
  · rename_i he
    have hlt : s.pos < c.src.length := by
      unfold eos at he
      simp only [decide_eq_true_eq] at he
      omega
    have hl := hl hlt
    show EC c _ (match s.state with
      | .WithinComment => armComment c' (crS c s l) (crOff c.src s.pos)
      | .WithinDoctype => armDoctype c' (crS c s l) (crOff c.src s.pos)
      | .WithinContent => armContent c' (crS c s l) (crOff c.src s.pos)
      | .AfterOpeningEndTag => armAfterOpeningEndTag c' (crS c s l) (crOff c.src s.pos)
      | .WithinEndTag => armEndTag c' (crS c s l) (crOff c.src s.pos)
      | .AfterOpeningStartTag => armAfterOpeningStartTag c' (crS c s l) (crOff c.src s.pos)
      | .WithinTag => armTag c' (crS c s l) (crOff c.src s.pos)
      | .AfterAttributeName => armAfterAttributeName c' (crS c s l) (crOff c.src s.pos)
      | .BeforeAttributeValue => armBeforeAttributeValue c' (crS c s l) (crOff c.src s.pos)
      | .WithinScriptContent => armScript c' (crS c s l) (crOff c.src s.pos)
      | .WithinStyleContent => armStyle c' (crS c s l) (crOff c.src s.pos))
    cases s.state
    · exact ln_armContent h s l _ hl
    · exact ln_armAfterOpeningStartTag h s l _
    · exact ln_armAfterOpeningEndTag h s l _ hl
    · exact ln_armDoctype h s l _ hl
    · exact ln_armTag h s l _ hl
    · exact ln_armEndTag h s l _ hl
    · exact ln_armComment h s l _ hl
    · exact ln_armScript h s l _ hl
    · exact ln_armStyle h s l _ hl
    · exact ln_armAfterAttributeName h s l _ hl
    · exact ln_armBeforeAttributeValue h s l hl

theorem ln_tokensF (f : Nat) (s : Sc) (l : Option Str) (hl : s.pos < c.src.length → s.lastType.isSome = l.isSome) :
    tokensF c' f (crS c s l) = (tokensF c f s).map (List.map (crTok c.src)) := by
  induction f generalizing s l with
  | zero => rfl
  | succ f ih =>
    have hs := ln_scan h s l hl
    unfold tokensF
    revert hs
    cases scan c s with
    | error e => cases scan c' (crS c s l) with
      | error e' => intro hs; cases hs; rfl
      | ok s' => exact False.elim
    | ok s1 => cases scan c' (crS c s l) with
      | error e' => exact False.elim
      | ok s' =>
        rintro ⟨l1, rfl, h1⟩
        simp only [bind, Except.bind, ih s1 l1 h1]
        show (if s1.tokenType = .EOS then _ else _) = Except.map _ (if s1.tokenType = .EOS then _ else _)
        split
        · rfl
        · cases tokensF c f s1 with
          | error e => rfl
          | ok ts => rfl

omit h in
theorem crS_new (o : Nat) (st : SS) : crS c (.new o st) none = .new (crOff c.src o) st := by
  unfold crS Sc.new
  simp only [crOff_zero]

theorem ln_tokens (o : Nat) (st : SS) :
    tokens c' (.new (crOff c.src o) st) = (tokens c (.new o st)).map (List.map (crTok c.src)) := by
  unfold tokens
  rw [← crS_new, ln_tokensF h _ _ none (fun _ => rfl)]
  congr 1
  have hm : mu c (.new o st) < 2 * (c.src.length - o) + 2 := by unfold mu Sc.new; simp only; split <;> omega
  have hle : c.src.length - o ≤ c'.src.length - crOff c.src o := by
    rw [h.src, crlf_length]
    unfold crOff
    have := List.count_append (a := 10) (l₁ := c.src.take o) (l₂ := c.src.drop o)
    rw [List.take_append_drop] at this
    omega
  have := tokensF_fuel hm (2 * (c'.src.length - crOff c.src o) - 2 * (c.src.length - o))
  refine Eq.trans ?_ this
  congr 1
  show 2 * (c'.src.length - crOff c.src o) + 2 = _
  omega

end

end Html
