import Verif.Proof.Local
import Verif.Spec.Locality

/-! # Scanning behind a prefix: only the offsets change -/

namespace Html

/-- The same settings with some text in front of the source. -/
def Cfg.behind (c : Cfg) (pre : Str) : Cfg := { c with src := pre ++ c.src }

/-- All offsets moved by `k`. -/
def Sc.shift (k : Nat) (s : Sc) : Sc := { s with pos := s.pos + k, tokenOffset := s.tokenOffset + k }

variable {c : Cfg} {pre : Str} {s : Sc}

@[simp] theorem shift_uni : (c.behind pre).uni = c.uni := rfl
@[simp] theorem shift_emit : (c.behind pre).emitPseudo = c.emitPseudo := rfl
@[simp] theorem shift_case : (c.behind pre).caseSensitive = c.caseSensitive := rfl
theorem shift_src : (c.behind pre).src = pre ++ c.src := rfl

theorem shift_rest : rest (c.behind pre) (s.shift pre.length) = rest c s := by
  simp only [rest, Sc.shift, shift_src]
  rw [Nat.add_comm, List.drop_append, List.drop_eq_nil_of_le (by omega), Nat.add_sub_cancel_left, List.nil_append]

theorem shift_get (i : Nat) : (pre ++ c.src)[i + pre.length]? = c.src[i]? := by
  rw [List.getElem?_append_right (by omega), Nat.add_sub_cancel]

theorem shift_peek : peek (c.behind pre) (s.shift pre.length) = peek c s := shift_get _

theorem shift_eos : eos (c.behind pre) (s.shift pre.length) = eos c s := by
  simp only [eos, Sc.shift, shift_src, List.length_append, decide_eq_decide]; omega

theorem shift_adv {n k : Nat} : adv (s.shift k) n = (adv s n).shift k := by
  simp only [adv, Sc.shift, Sc.mk.injEq, true_and, and_true]; omega

theorem shift_fin {o k : Nat} {t : TT} {e : Option ErrMsg} : fin (s.shift k) (o + k) t e = (fin s o t e).shift k := rfl

theorem shift_boundary (x : Str) (i : Nat) : isBoundary (pre ++ x) (i + pre.length) = isBoundary x i := by
  unfold isBoundary
  rw [List.getElem?_append_right (by omega), Nat.add_sub_cancel, List.length_append]
  by_cases h : i = x.length
  · rw [if_pos h, if_pos (by omega)]
  · rw [if_neg h, if_neg (by omega)]

theorem shift_slice (x : Str) (a b : Nat) :
    sliceStr (pre ++ x) (a + pre.length) (b + pre.length) = sliceStr x a b := by
  unfold sliceStr
  rw [shift_boundary, shift_boundary, List.length_append]
  have e : (List.take (b + pre.length) (pre ++ x)).drop (a + pre.length) = (x.take b).drop a := by
    rw [List.take_append, List.take_of_length_le (by omega), Nat.add_sub_cancel, List.drop_append,
      List.drop_eq_nil_of_le (by omega), Nat.add_sub_cancel, List.nil_append]
  rw [e]
  have h1 : decide (a + pre.length ≤ b + pre.length) = decide (a ≤ b) := by simp
  have h2 : decide (b + pre.length ≤ pre.length + x.length) = decide (b ≤ x.length) := by
    rw [decide_eq_decide]; omega
  rw [h1, h2]

theorem shift_sliceFrom : sliceFrom (c.behind pre) (s.shift pre.length) = sliceFrom c s := by
  unfold sliceFrom
  rw [shift_src, List.length_append, Nat.add_comm pre.length]
  exact shift_slice _ _ _

theorem map_bind {α : Type} {x : R α} {f : α → R Sc} {g : Sc → Sc} :
    (x >>= f).map g = x >>= fun a => (f a).map g := by
  cases x <;> rfl

theorem map_ite {p : Prop} [Decidable p] {x y : R Sc} {g : Sc → Sc} :
    (if p then x else y).map g = if p then x.map g else y.map g := by
  split <;> rfl

theorem map_okS {x : Sc} {g : Sc → Sc} : Except.map g (Except.ok x : R Sc) = .ok (g x) := rfl

/-- What is to be shown of an arm. -/
abbrev Shifts (pre : Str) (x' x : R Sc) : Prop := x' = x.map (Sc.shift pre.length)

theorem Shifts.ite {p p' : Prop} [Decidable p] [Decidable p'] (hp : p ↔ p') {x x' y y' : R Sc}
    (hx : p → Shifts pre x' x) (hy : ¬ p → Shifts pre y' y) :
    Shifts pre (if p' then x' else y') (if p then x else y) := by
  by_cases h : p
  · rw [if_pos h, if_pos (hp.1 h)]; exact hx h
  · rw [if_neg h, if_neg (mt hp.2 h)]; exact hy h

theorem Shifts.bind {α : Type} {m : R α} {f f' : α → R Sc} (h : ∀ a, m = .ok a → Shifts pre (f' a) (f a)) :
    Shifts pre (m >>= f') (m >>= f) := by
  unfold Shifts
  rw [map_bind]
  cases m with
  | error e => rfl
  | ok a => exact h a rfl

theorem Shifts.ok {x x' : Sc} (h : x' = x.shift pre.length) : Shifts pre (.ok x') (.ok x) := by
  rw [h]; rfl

theorem armComment_shift {o : Nat} :
    Shifts pre (armComment (c.behind pre) (s.shift pre.length) (o + pre.length)) (armComment c s o) := by
  unfold armComment
  rw [shift_rest]
  refine Shifts.ite Iff.rfl (fun _ => ?_) (fun _ => ?_) <;> rw [shift_adv] <;> rfl

theorem armDoctype_shift {o : Nat} :
    Shifts pre (armDoctype (c.behind pre) (s.shift pre.length) (o + pre.length)) (armDoctype c s o) := by
  unfold armDoctype
  rw [shift_rest, shift_peek]
  refine Shifts.ite Iff.rfl (fun _ => ?_) (fun _ => ?_) <;> rw [shift_adv] <;> rfl

theorem armContent_shift {o : Nat} :
    Shifts pre (armContent (c.behind pre) (s.shift pre.length) (o + pre.length)) (armContent c s o) := by
  unfold armContent
  dsimp only
  rw [shift_rest, shift_peek]
  refine Shifts.ite Iff.rfl (fun _ => ?_) (fun _ => ?_)
  · rw [shift_adv, shift_rest, shift_peek, shift_sliceFrom]
    have hb : Shifts pre
        (if peek c (adv s 1) = some 47 then
          Except.ok (fin { adv ((adv s 1).shift pre.length) 1 with state := .AfterOpeningEndTag } (o + pre.length) .EndTagOpen none)
        else .ok (fin { (adv s 1).shift pre.length with state := .AfterOpeningStartTag } (o + pre.length) .StartTagOpen none))
        (if peek c (adv s 1) = some 47 then
          Except.ok (fin { adv (adv s 1) 1 with state := .AfterOpeningEndTag } o .EndTagOpen none)
        else .ok (fin { adv s 1 with state := .AfterOpeningStartTag } o .StartTagOpen none)) := by
      refine Shifts.ite Iff.rfl (fun _ => ?_) (fun _ => ?_)
      · rw [shift_adv]; rfl
      · rfl
    refine Shifts.ite Iff.rfl (fun _ => ?_) (fun _ => hb)
    refine Shifts.ite Iff.rfl (fun _ => ?_) (fun _ => ?_)
    · rw [shift_adv]; rfl
    · refine Shifts.bind fun r _ => ?_
      refine Shifts.ite Iff.rfl (fun _ => ?_) (fun _ => hb)
      rw [shift_adv]; rfl
  · rw [shift_adv]; rfl

theorem armEndTag_shift {o : Nat} :
    Shifts pre (armEndTag (c.behind pre) (s.shift pre.length) (o + pre.length)) (armEndTag c s o) := by
  unfold armEndTag
  dsimp only
  rw [shift_rest, shift_peek, shift_emit]
  refine Shifts.ite Iff.rfl (fun _ => ?_) (fun _ => Shifts.ite Iff.rfl (fun _ => ?_) (fun _ =>
    Shifts.ite Iff.rfl (fun _ => ?_) (fun _ => ?_)))
  · rw [shift_adv]; rfl
  · rw [shift_adv]; rfl
  · rfl
  · rw [shift_adv]; rfl

theorem armTagRest_shift {o : Nat} :
    Shifts pre (armTagRest (c.behind pre) (s.shift pre.length) (o + pre.length)) (armTagRest c s o) := by
  unfold armTagRest
  rw [shift_rest, shift_peek, shift_emit]
  refine Shifts.ite Iff.rfl (fun _ => ?_) (fun _ => Shifts.ite Iff.rfl (fun _ => ?_) (fun _ =>
    Shifts.ite Iff.rfl (fun _ => ?_) (fun _ => ?_)))
  · rw [shift_adv]; rfl
  · rw [shift_adv]; rfl
  · rfl
  · rw [shift_adv]; rfl

theorem nextAttributeName_shift {f f' : Option Str × Sc → R Sc}
    (h : ∀ name s1, Shifts pre (f' (name, s1.shift pre.length)) (f (name, s1))) :
    Shifts pre (nextAttributeName (c.behind pre) (s.shift pre.length) >>= f') (nextAttributeName c s >>= f) := by
  unfold nextAttributeName
  rw [shift_sliceFrom, shift_uni, shift_case]
  rw [bind_assoc, bind_assoc]
  refine Shifts.bind fun r _ => ?_
  dsimp only
  split
  · exact h _ _
  · rw [shift_adv]; exact h _ _

theorem nextElementName_shift {f f' : Option Str × Sc → R Sc}
    (h : ∀ name s1, Shifts pre (f' (name, s1.shift pre.length)) (f (name, s1))) :
    Shifts pre (nextElementName (c.behind pre) (s.shift pre.length) >>= f') (nextElementName c s >>= f) := by
  unfold nextElementName
  rw [shift_sliceFrom, shift_uni, shift_case]
  rw [bind_assoc, bind_assoc]
  refine Shifts.bind fun r _ => ?_
  dsimp only
  split
  · exact h _ _
  · rw [shift_adv]; exact h _ _

theorem armTag_shift {o : Nat} :
    Shifts pre (armTag (c.behind pre) (s.shift pre.length) (o + pre.length)) (armTag c s o) := by
  unfold armTag
  dsimp only
  rw [shift_rest]
  refine Shifts.ite Iff.rfl (fun _ => ?_) (fun _ => Shifts.ite Iff.rfl (fun _ => ?_) (fun _ => armTagRest_shift))
  · rw [shift_adv]; rfl
  · refine nextAttributeName_shift fun name s1 => ?_
    dsimp only
    refine Shifts.ite Iff.rfl (fun _ => rfl) (fun _ => ?_)
    have e := shift_peek (c := c) (pre := pre) (s := { s1 with lastAttr := name })
    refine Shifts.ite (by rw [← e]; exact Iff.rfl) (fun _ => ?_) (fun _ => ?_)
    · exact armTagRest_shift (s := { s1 with lastAttr := name, hasSpace := false })
    · exact armTagRest_shift (s := { s1 with lastAttr := name })

theorem internalTag_shift : Shifts pre (internalTag (c.behind pre) (s.shift pre.length)) (internalTag c s) := by
  unfold internalTag
  rw [shift_eos]
  exact Shifts.ite Iff.rfl (fun _ => rfl) (fun _ => armTag_shift)

theorem internalEndTag_shift :
    Shifts pre (internalEndTag (c.behind pre) (s.shift pre.length)) (internalEndTag c s) := by
  unfold internalEndTag
  rw [shift_eos]
  exact Shifts.ite Iff.rfl (fun _ => rfl) (fun _ => armEndTag_shift)

theorem internalContent_shift :
    Shifts pre (internalContent (c.behind pre) (s.shift pre.length)) (internalContent c s) := by
  unfold internalContent
  rw [shift_eos]
  exact Shifts.ite Iff.rfl (fun _ => rfl) (fun _ => armContent_shift)

theorem armAfterOpeningEndTag_shift {o : Nat} :
    Shifts pre (armAfterOpeningEndTag (c.behind pre) (s.shift pre.length) (o + pre.length))
      (armAfterOpeningEndTag c s o) := by
  unfold armAfterOpeningEndTag
  refine nextElementName_shift fun name s1 => ?_
  dsimp only
  refine Shifts.ite Iff.rfl (fun _ => rfl) (fun _ => ?_)
  rw [shift_rest]
  refine Shifts.ite Iff.rfl (fun _ => by rw [shift_adv]; rfl) (fun _ => ?_)
  have e : rest (c.behind pre) { s1.shift pre.length with state := SS.WithinEndTag } = rest c s1 := shift_rest
  have e' : rest c { s1 with state := SS.WithinEndTag } = rest c s1 := rfl
  rw [e, e']
  have e2 : adv { s1.shift pre.length with state := SS.WithinEndTag } (untilByte 62 (rest c s1)) =
      (adv { s1 with state := SS.WithinEndTag } (untilByte 62 (rest c s1))).shift pre.length :=
    shift_adv (s := { s1 with state := SS.WithinEndTag })
  rw [e2]
  refine Shifts.ite (by simp only [Sc.shift]; omega) (fun _ => rfl) (fun _ => internalEndTag_shift)

theorem armAfterOpeningStartTag_shift {o : Nat} :
    Shifts pre (armAfterOpeningStartTag (c.behind pre) (s.shift pre.length) (o + pre.length))
      (armAfterOpeningStartTag c s o) := by
  unfold armAfterOpeningStartTag
  refine nextElementName_shift fun name s0 => ?_
  dsimp only
  refine Shifts.ite Iff.rfl (fun _ => rfl) (fun _ => ?_)
  have e : ∀ st, rest (c.behind pre) { s0.shift pre.length with lastTag := name, lastType := none, lastAttr := none, state := st }
    = rest c s0 := fun _ => shift_rest
  have e' : ∀ st, rest c { s0 with lastTag := name, lastType := none, lastAttr := none, state := st } = rest c s0 :=
    fun _ => rfl
  have e1 := e s0.state
  have e1' := e' s0.state
  simp only at e1 e1'
  rw [show rest (c.behind pre) { s0.shift pre.length with lastTag := name, lastType := none, lastAttr := none } = rest c s0
    from shift_rest, show rest c { s0 with lastTag := name, lastType := none, lastAttr := none } = rest c s0 from rfl]
  refine Shifts.ite Iff.rfl (fun _ => ?_) (fun _ => ?_)
  · refine Shifts.ok ?_
    simp only [adv, fin, Sc.shift, Sc.mk.injEq, true_and, and_true]; omega
  · rw [e, e']
    have e2 : adv { s0.shift pre.length with lastTag := name, lastType := none, lastAttr := none, state := SS.WithinTag }
        (untilByte 62 (rest c s0)) =
        (adv { s0 with lastTag := name, lastType := none, lastAttr := none, state := SS.WithinTag }
          (untilByte 62 (rest c s0))).shift pre.length :=
      shift_adv (s := { s0 with lastTag := name, lastType := none, lastAttr := none, state := SS.WithinTag })
    rw [e2]
    refine Shifts.ite (by simp only [Sc.shift]; omega) (fun _ => rfl) (fun _ => internalTag_shift)

theorem armAfterAttributeName_shift {o : Nat} :
    Shifts pre (armAfterAttributeName (c.behind pre) (s.shift pre.length) (o + pre.length))
      (armAfterAttributeName c s o) := by
  unfold armAfterAttributeName
  dsimp only
  rw [shift_rest, shift_peek]
  refine Shifts.ite Iff.rfl (fun _ => ?_) (fun _ => Shifts.ite Iff.rfl (fun _ => ?_) (fun _ => ?_))
  · rw [shift_adv]; rfl
  · rw [shift_adv]; rfl
  · exact internalTag_shift (s := { s with state := .WithinTag })

theorem rememberQuoted_shift {o : Nat} (hp : 0 < s.pos) :
    Shifts pre (rememberQuoted (c.behind pre) (s.shift pre.length) (o + pre.length)) (rememberQuoted c s o) := by
  unfold rememberQuoted
  refine Shifts.ite Iff.rfl (fun _ => ?_) (fun _ => rfl)
  have e1 : subU s.pos 1 = .ok (s.pos - 1) := if_pos hp
  have e2 : subU (s.shift pre.length).pos 1 = .ok (s.pos - 1 + pre.length) := by
    change (if 1 ≤ s.pos + pre.length then Except.ok (s.pos + pre.length - 1) else Except.error Panic.underflow) = _
    rw [if_pos (by omega)]
    congr 1
    omega
  rw [e1, e2]
  change Shifts pre ((if _ then _ else _) >>= _) ((if _ then _ else _) >>= _)
  have e3 : (if o + pre.length + 1 > s.pos - 1 + pre.length then
        sliceStr (c.behind pre).src (s.pos - 1 + pre.length) (o + pre.length + 1)
      else sliceStr (c.behind pre).src (o + pre.length + 1) (s.pos - 1 + pre.length)) =
      if o + 1 > s.pos - 1 then sliceStr c.src (s.pos - 1) (o + 1) else sliceStr c.src (o + 1) (s.pos - 1) := by
    have a1 := shift_slice (pre := pre) c.src (s.pos - 1) (o + 1)
    have a2 := shift_slice (pre := pre) c.src (o + 1) (s.pos - 1)
    rw [show o + 1 + pre.length = o + pre.length + 1 by omega] at a1 a2
    rw [shift_src, a1, a2]
    by_cases h : o + 1 > s.pos - 1
    · rw [if_pos h, if_pos (by omega)]
    · rw [if_neg h, if_neg (by omega)]
  rw [e3]
  exact Shifts.bind fun _ _ => rfl

theorem armQuotedValue_shift {o : Nat} :
    Shifts pre (armQuotedValue (c.behind pre) (s.shift pre.length) (o + pre.length)) (armQuotedValue c s o) := by
  unfold armQuotedValue
  rw [shift_peek]
  have ht := internalTag_shift (c := c) (pre := pre) (s := { s with state := .WithinTag, hasSpace := false })
  split
  · rename_i ch hch
    refine Shifts.ite Iff.rfl (fun _ => ?_) (fun _ => ht)
    dsimp only
    rw [shift_adv, shift_rest, shift_adv, shift_peek]
    have e : (if peek c (adv (adv s 1) (untilByte ch (rest c (adv s 1)))) = some ch then
          adv ((adv (adv s 1) (untilByte ch (rest c (adv s 1)))).shift pre.length) 1
        else (adv (adv s 1) (untilByte ch (rest c (adv s 1)))).shift pre.length) =
        (if peek c (adv (adv s 1) (untilByte ch (rest c (adv s 1)))) = some ch then
          adv (adv (adv s 1) (untilByte ch (rest c (adv s 1)))) 1
        else adv (adv s 1) (untilByte ch (rest c (adv s 1)))).shift pre.length := by
      split
      · rw [shift_adv]
      · rfl
    rw [e]
    generalize hs3 : (if peek c (adv (adv s 1) (untilByte ch (rest c (adv s 1)))) = some ch then
          adv (adv (adv s 1) (untilByte ch (rest c (adv s 1)))) 1
        else adv (adv s 1) (untilByte ch (rest c (adv s 1)))) = s3
    have hp : 0 < s3.pos := by
      rw [← hs3]
      split <;> simp only [adv] <;> omega
    have h := rememberQuoted_shift (c := c) (pre := pre) (o := o) hp
    unfold Shifts at h ⊢
    rw [h, map_bind]
    cases rememberQuoted c s3 o <;> rfl
  · exact ht

theorem unquotedLen_not_close (h : 0 < unquotedLen (rest c s)) : peek c s ≠ some 62 := by
  obtain ⟨b, t, he, hb⟩ := firstRunLen_head h
  intro hp
  have : (rest c s).head? = some 62 := by
    unfold rest; rw [List.head?_drop]; exact hp
  rw [he] at this
  cases this
  rw [show codePoint (62 :: t) = 62 by simp [codePoint]] at hb
  revert hb
  decide

theorem armBeforeAttributeValue_shift {o : Nat} :
    Shifts pre (armBeforeAttributeValue (c.behind pre) (s.shift pre.length) (o + pre.length))
      (armBeforeAttributeValue c s o) := by
  unfold armBeforeAttributeValue
  dsimp only
  rw [shift_rest]
  refine Shifts.ite Iff.rfl (fun _ => by rw [shift_adv]; rfl) (fun _ => ?_)
  rw [shift_sliceFrom]
  refine Shifts.bind fun r hr => ?_
  refine Shifts.ite Iff.rfl (fun _ => armQuotedValue_shift) (fun hn => ?_)
  have hr' : r = rest c s := (sliceFrom_ok hr).1
  subst hr'
  have h62 : (peek c s == some 62) = false := by
    have := unquotedLen_not_close (c := c) (s := s) (Nat.pos_of_ne_zero hn)
    simpa using this
  rw [shift_peek, h62]
  simp only [Bool.false_and, trimValue, Bool.false_eq_true, if_false]
  change Shifts pre (extendValue _ _ _ _ >>= _) (extendValue _ _ _ _ >>= _)
  rw [shift_adv, shift_peek]
  generalize hq : (peek c (adv s (unquotedLen (rest c s))) == some 39 || peek c (adv s (unquotedLen (rest c s))) == some 34) = q
  have e2 : (if q = true then adv ((adv s (unquotedLen (rest c s))).shift pre.length) 1
      else (adv s (unquotedLen (rest c s))).shift pre.length) =
      (if q = true then adv (adv s (unquotedLen (rest c s))) 1 else adv s (unquotedLen (rest c s))).shift pre.length := by
    split
    · rw [shift_adv]
    · rfl
  rw [e2]
  generalize hs2 : (if q = true then adv (adv s (unquotedLen (rest c s))) 1 else adv s (unquotedLen (rest c s))) = s2
  have e3 : extendValue (c.behind pre) q (s2.shift pre.length).pos ((rest c s).take (unquotedLen (rest c s))) =
      extendValue c q s2.pos ((rest c s).take (unquotedLen (rest c s))) := by
    unfold extendValue
    split
    · rename_i hqt
      rw [if_pos hqt] at hs2
      have hp : s2.pos = s.pos + unquotedLen (rest c s) + 1 := by rw [← hs2]; rfl
      have hlen : ((rest c s).take (unquotedLen (rest c s))).length ≤ unquotedLen (rest c s) := by
        rw [List.length_take]; omega
      generalize ((rest c s).take (unquotedLen (rest c s))).length = l at hlen
      have a1 : subU s2.pos l = .ok (s2.pos - l) := if_pos (by omega)
      have a2 : subU (s2.pos + pre.length) l = .ok (s2.pos - l + pre.length) := by
        unfold subU; rw [if_pos (by omega)]; congr 1; omega
      have b1 : subU (s2.pos - l) 1 = .ok (s2.pos - l - 1) := if_pos (by omega)
      have b2 : subU (s2.pos - l + pre.length) 1 = .ok (s2.pos - l - 1 + pre.length) := by
        unfold subU; rw [if_pos (by omega)]; congr 1; omega
      change (subU (s2.pos + pre.length) l >>= fun a => subU a 1 >>= fun a => sliceStr (c.behind pre).src a (s2.pos + pre.length)) =
        (subU s2.pos l >>= fun a => subU a 1 >>= fun a => sliceStr c.src a s2.pos)
      rw [a1, a2]
      change (subU _ 1 >>= _) = (subU _ 1 >>= _)
      rw [b1, b2]
      exact shift_slice _ _ _
    · rfl
  rw [e3]
  refine Shifts.bind fun v2 _ => ?_
  have e4 : (if (s2.shift pre.length).lastAttr = some b!"type" then { s2.shift pre.length with lastType := nonEmpty v2 }
      else s2.shift pre.length) =
      (if s2.lastAttr = some b!"type" then { s2 with lastType := nonEmpty v2 } else s2).shift pre.length := by
    by_cases h : s2.lastAttr = some b!"type"
    · rw [if_pos h, if_pos (show (s2.shift pre.length).lastAttr = some b!"type" from h)]; rfl
    · rw [if_neg h, if_neg (show ¬ (s2.shift pre.length).lastAttr = some b!"type" from h)]
  rw [e4]
  change Shifts pre (if _ then _ else _) (if _ then _ else _)
  exact Shifts.ite Iff.rfl (fun _ => rfl) (fun _ => armQuotedValue_shift)

theorem scriptLoop_shift (fuel st pos : Nat) :
    scriptLoop (c.behind pre) fuel st (pos + pre.length) =
      (scriptLoop c fuel st pos).map fun e => match e with | .noMatch => .noMatch | .at p => .at (p + pre.length) := by
  induction fuel generalizing st pos with
  | zero => rfl
  | succ fuel ih =>
    unfold scriptLoop
    have hl : (c.behind pre).src.length ≤ pos + pre.length ↔ c.src.length ≤ pos := by
      rw [shift_src, List.length_append]; omega
    by_cases h : c.src.length ≤ pos
    · rw [if_pos h, if_pos (hl.2 h)]; rfl
    · rw [if_neg h, if_neg (mt hl.1 h)]
      have e : sliceStr (c.behind pre).src (pos + pre.length) (c.behind pre).src.length = sliceStr c.src pos c.src.length := by
        rw [shift_src, List.length_append, Nat.add_comm pre.length]
        exact shift_slice _ _ _
      rw [e]
      cases sliceStr c.src pos c.src.length with
      | error e => rfl
      | ok r =>
        simp only [bind, Except.bind]
        cases hf : scriptFind r with
        | none => rfl
        | some x =>
          obtain ⟨k, i, n⟩ := x
          have e1 : pos + pre.length + i + n = pos + i + n + pre.length := by omega
          simp only [e1]
          cases k with
          | commentOpen => exact ih _ _
          | commentClose => exact ih _ _
          | scriptOpen => exact ih _ _
          | scriptClose =>
            simp only
            split
            · exact ih _ _
            · have a1 : subU (pos + i + n) n = .ok (pos + i) := by
                unfold subU; rw [if_pos (by omega)]; congr 1; omega
              have a2 : subU (pos + i + n + pre.length) n = .ok (pos + i + pre.length) := by
                unfold subU; rw [if_pos (by omega)]; congr 1; omega
              rw [a1, a2]; rfl

theorem armScript_shift {o : Nat} :
    Shifts pre (armScript (c.behind pre) (s.shift pre.length) (o + pre.length)) (armScript c s o) := by
  unfold armScript
  have hf : (c.behind pre).src.length - (s.shift pre.length).pos + 1 = c.src.length - s.pos + 1 := by
    rw [shift_src, List.length_append]; simp only [Sc.shift]; omega
  rw [hf]
  have := scriptLoop_shift (c := c) (pre := pre) (c.src.length - s.pos + 1) 1 s.pos
  change Shifts pre (scriptLoop (c.behind pre) _ 1 (s.pos + pre.length) >>= _) _
  rw [this]
  cases scriptLoop c (c.src.length - s.pos + 1) 1 s.pos with
  | error e => rfl
  | ok e =>
    cases e with
    | noMatch =>
      refine Shifts.ok ?_
      simp only [goToEnd, fin, Sc.shift, shift_src, List.length_append, Sc.mk.injEq, true_and, and_true]; omega
    | «at» p =>
      change Shifts pre (if _ then _ else _) (if _ then _ else _)
      refine Shifts.ite (by simp) (fun _ => rfl) (fun _ => ?_)
      exact internalContent_shift (s := { s with pos := p, state := .WithinContent })

theorem armStyle_shift {o : Nat} :
    Shifts pre (armStyle (c.behind pre) (s.shift pre.length) (o + pre.length)) (armStyle c s o) := by
  unfold armStyle
  rw [shift_sliceFrom]
  refine Shifts.bind fun r _ => ?_
  dsimp only
  refine Shifts.ite (by simp only [adv, Sc.shift]; omega) (fun _ => ?_) (fun _ => ?_)
  · rw [shift_adv]; rfl
  · rw [shift_adv]
    exact internalContent_shift (s := { adv s (untilLit b!"</style" r) with state := .WithinContent })

theorem internalScan_shift : Shifts pre (internalScan (c.behind pre) (s.shift pre.length)) (internalScan c s) := by
  unfold internalScan
  rw [shift_eos]
  refine Shifts.ite Iff.rfl (fun _ => rfl) (fun _ => ?_)
  have e : (s.shift pre.length).state = s.state := rfl
  rw [e]
  cases s.state
  · exact armContent_shift
  · exact armAfterOpeningStartTag_shift
  · exact armAfterOpeningEndTag_shift
  · exact armDoctype_shift
  · exact armTag_shift
  · exact armEndTag_shift
  · exact armComment_shift
  · exact armScript_shift
  · exact armStyle_shift
  · exact armAfterAttributeName_shift
  · exact armBeforeAttributeValue_shift

theorem scan_shift : Shifts pre (scan (c.behind pre) (s.shift pre.length)) (scan c s) := by
  unfold scan
  have h := internalScan_shift (c := c) (pre := pre) (s := s)
  unfold Shifts at h ⊢
  rw [h]
  cases internalScan c s with
  | error e => rfl
  | ok s1 =>
    change (if notAdvanced (c.behind pre) (s.pos + pre.length) (s1.shift pre.length) = true then _ else _) = _
    have e : notAdvanced (c.behind pre) (s.pos + pre.length) (s1.shift pre.length) = notAdvanced c s.pos s1 := by
      unfold notAdvanced
      have : (s.pos + pre.length == s1.pos + pre.length) = (s.pos == s1.pos) := by
        rw [Bool.eq_iff_iff]; simp
      simp only [Sc.shift, shift_emit, this]
    rw [e]
    change _ = Except.map _ (if _ then _ else _)
    cases notAdvanced c s.pos s1
    · rfl
    · rw [shift_adv]; rfl

theorem tokensF_shift (fuel : Nat) :
    tokensF (c.behind pre) fuel (s.shift pre.length) = (tokensF c fuel s).map (List.map (Tok.shift pre.length)) := by
  induction fuel generalizing s with
  | zero => rfl
  | succ fuel ih =>
    unfold tokensF
    rw [show scan (c.behind pre) (s.shift pre.length) = _ from scan_shift]
    cases scan c s with
    | error e => rfl
    | ok s1 =>
      change (if s1.tokenType = .EOS then _ else _) = Except.map _ (if s1.tokenType = .EOS then _ else _)
      split
      · rfl
      · rw [ih]
        cases tokensF c fuel s1 <;> rfl

theorem tokens_shift :
    tokens (c.behind pre) (s.shift pre.length) = (tokens c s).map (List.map (Tok.shift pre.length)) := by
  unfold tokens
  have hf : 2 * ((c.behind pre).src.length - (s.shift pre.length).pos) + 2 = 2 * (c.src.length - s.pos) + 2 := by
    rw [shift_src, List.length_append]; simp only [Sc.shift]; omega
  rw [hf]
  exact tokensF_shift _

end Html
