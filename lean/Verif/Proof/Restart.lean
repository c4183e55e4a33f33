import Verif.Proof.Tile

/-! # Scanners that agree on position and state produce the same tokens -/

namespace Html

/-- The hidden fields matter only inside a start tag. -/
def Hid (c : Cfg) (a b : Sc) : Prop :=
  (a.state = .WithinTag ∨ a.state = .AfterAttributeName ∨ a.state = .BeforeAttributeValue) →
    (a.hasSpace = b.hasSpace ∧ a.lastTag = b.lastTag ∧ a.lastAttr = b.lastAttr ∧
      a.lastType = b.lastType) ∨
    (a.state = .WithinTag ∧ a.lastTag = none ∧ b.lastTag = none ∧
      (c.src.length ≤ a.pos ∨ (rest c a).head? = some 62))

/-- Two scanners that will behave alike. -/
def Eqv (c : Cfg) (a b : Sc) : Prop := a.state = b.state ∧ a.pos = b.pos ∧ Hid c a b

/-- Results that look alike. -/
inductive Rel (c : Cfg) : R Sc → R Sc → Prop
  | ok {a b : Sc} (h : a.tok = b.tok) (hh : Hid c a b) : Rel c (.ok a) (.ok b)
  | error (e : Panic) : Rel c (.error e) (.error e)

/-- All fields but the last token agree. -/
def SameH (a b : Sc) : Prop :=
  a.state = b.state ∧ a.pos = b.pos ∧ a.hasSpace = b.hasSpace ∧ a.lastTag = b.lastTag ∧
  a.lastAttr = b.lastAttr ∧ a.lastType = b.lastType

theorem SameH.elim {a b : Sc} (h : SameH a b) :
    ∃ tt o e, b = { a with tokenType := tt, tokenOffset := o, tokenError := e } := by
  obtain ⟨h1, h2, h3, h4, h5, h6⟩ := h
  refine ⟨b.tokenType, b.tokenOffset, b.tokenError, ?_⟩
  cases a; cases b; simp_all

theorem Rel.refl {c : Cfg} (x : R Sc) : Rel c x x := by
  cases x with
  | error e => exact .error e
  | ok a => exact .ok rfl (fun _ => .inl ⟨rfl, rfl, rfl, rfl⟩)

theorem Rel.ite {c : Cfg} {p : Prop} [Decidable p] {x x' y y' : R Sc}
    (h1 : p → Rel c x x') (h2 : ¬ p → Rel c y y') :
    Rel c (if p then x else y) (if p then x' else y') := by
  by_cases hp : p
  · rw [if_pos hp, if_pos hp]; exact h1 hp
  · rw [if_neg hp, if_neg hp]; exact h2 hp

theorem Rel.bind {c : Cfg} {α : Type} {x : R α} {f g : α → R Sc}
    (h : ∀ a, x = .ok a → Rel c (f a) (g a)) : Rel c (x >>= f) (x >>= g) := by
  cases x with
  | error e => exact .error e
  | ok a => exact h a rfl

/-- Both sides are finished tokens outside start tags. -/
macro "rel_done" : tactic => `(tactic| exact Rel.ok (by simp_all [Sc.tok, fin]) (by simp_all [Hid, fin]))

theorem armContent_rel {c : Cfg} {a b : Sc} {o : Nat} (h : a.pos = b.pos)
    (ha : a.state = .WithinContent) (hb : b.state = .WithinContent) :
    Rel c (armContent c a o) (armContent c b o) := by
  unfold armContent
  simp only [peek, adv, rest, sliceFrom, ← h]
  refine .ite (fun _ => .ite (fun _ => .ite (fun _ => ?_) fun _ => .bind fun r _ =>
    .ite (fun _ => ?_) fun _ => .ite (fun _ => ?_) fun _ => ?_)
    fun _ => .ite (fun _ => ?_) fun _ => ?_) fun _ => ?_ <;> rel_done

theorem internalContent_rel {c : Cfg} {a b : Sc} (h : a.pos = b.pos)
    (ha : a.state = .WithinContent) (hb : b.state = .WithinContent) :
    Rel c (internalContent c a) (internalContent c b) := by
  unfold internalContent
  simp only [eos, ← h]
  refine .ite (fun _ => ?_) fun _ => armContent_rel h ha hb
  rel_done

theorem armComment_rel {c : Cfg} {a b : Sc} {o : Nat} (h : a.pos = b.pos)
    (ha : a.state = .WithinComment) (hb : b.state = .WithinComment) :
    Rel c (armComment c a o) (armComment c b o) := by
  unfold armComment
  simp only [adv, rest, ← h]
  refine .ite (fun _ => ?_) fun _ => ?_ <;> rel_done

theorem armDoctype_rel {c : Cfg} {a b : Sc} {o : Nat} (h : a.pos = b.pos)
    (ha : a.state = .WithinDoctype) (hb : b.state = .WithinDoctype) :
    Rel c (armDoctype c a o) (armDoctype c b o) := by
  unfold armDoctype
  simp only [adv, rest, peek, ← h]
  refine .ite (fun _ => ?_) fun _ => ?_ <;> rel_done

theorem armEndTag_rel {c : Cfg} {a b : Sc} {o : Nat} (h : a.pos = b.pos)
    (ha : a.state = .WithinEndTag) (hb : b.state = .WithinEndTag) :
    Rel c (armEndTag c a o) (armEndTag c b o) := by
  unfold armEndTag
  simp only [adv, rest, peek, ← h]
  refine .ite (fun _ => ?_) fun _ => .ite (fun _ => ?_) fun _ => .ite (fun _ => ?_) fun _ => ?_
    <;> rel_done

theorem internalEndTag_rel {c : Cfg} {a b : Sc} (h : a.pos = b.pos)
    (ha : a.state = .WithinEndTag) (hb : b.state = .WithinEndTag) :
    Rel c (internalEndTag c a) (internalEndTag c b) := by
  unfold internalEndTag
  simp only [eos, ← h]
  refine .ite (fun _ => ?_) fun _ => armEndTag_rel h ha hb
  rel_done

theorem nextElementName_bind {c : Cfg} {s : Sc} {f : Option Str × Sc → R Sc} :
    (nextElementName c s >>= f) = (sliceFrom c s >>= fun r =>
      if elementNameLen c.uni r = 0 then f (none, s)
      else f (some (if c.caseSensitive then r.take (elementNameLen c.uni r)
        else toLower c.uni (r.take (elementNameLen c.uni r))), adv s (elementNameLen c.uni r))) := by
  unfold nextElementName
  cases sliceFrom c s with
  | error e => rfl
  | ok r =>
    by_cases h : elementNameLen c.uni r = 0 <;> simp [bind, Except.bind, pure, Except.pure, h]

theorem nextAttributeName_bind {c : Cfg} {s : Sc} {f : Option Str × Sc → R Sc} :
    (nextAttributeName c s >>= f) = (sliceFrom c s >>= fun r =>
      if attrNameLen r = 0 then f (none, s)
      else f (some (if c.caseSensitive then r.take (attrNameLen r)
        else toLower c.uni (r.take (attrNameLen r))), adv s (attrNameLen r))) := by
  unfold nextAttributeName
  cases sliceFrom c s with
  | error e => rfl
  | ok r =>
    by_cases h : attrNameLen r = 0 <;> simp [bind, Except.bind, pure, Except.pure, h]

theorem armAfterOpeningEndTag_rel {c : Cfg} {a b : Sc} {o : Nat} (h : a.pos = b.pos)
    (ha : a.state = .AfterOpeningEndTag) (hb : b.state = .AfterOpeningEndTag) :
    Rel c (armAfterOpeningEndTag c a o) (armAfterOpeningEndTag c b o) := by
  unfold armAfterOpeningEndTag
  rw [nextElementName_bind, nextElementName_bind]
  simp only [adv, rest, sliceFrom, ← h, Option.isSome_none, Option.isSome_some,
    Bool.false_eq_true, if_false, if_true]
  refine .bind fun r _ => .ite (fun _ => .ite (fun _ => ?_) fun _ => .ite (fun _ => ?_) fun _ => ?_)
    fun _ => ?_
  · rel_done
  · rel_done
  · exact internalEndTag_rel rfl rfl rfl
  · rel_done

theorem armStyle_rel {c : Cfg} {a b : Sc} {o : Nat} (h : a.pos = b.pos) :
    Rel c (armStyle c a o) (armStyle c b o) := by
  unfold armStyle
  simp only [adv, sliceFrom, ← h]
  refine .bind fun r _ => .ite (fun _ => ?_) fun _ => ?_
  · rel_done
  · exact internalContent_rel rfl rfl rfl

theorem armScript_rel {c : Cfg} {a b : Sc} {o : Nat} (h : a.pos = b.pos)
    (ha : a.state = .WithinScriptContent) (hb : b.state = .WithinScriptContent) :
    Rel c (armScript c a o) (armScript c b o) := by
  unfold armScript
  simp only [← h]
  refine .bind fun r _ => ?_
  cases r with
  | noMatch => simp only [goToEnd]; rel_done
  | «at» p =>
    refine .ite (fun _ => ?_) fun _ => ?_
    · rel_done
    · exact internalContent_rel rfl rfl rfl

/-- Both sides are finished tokens with equal hidden fields. -/
macro "rel_same" : tactic => `(tactic| exact Rel.ok (by simp [Sc.tok, fin, afterStartTag]) (fun _ => Or.inl (by simp [fin])))

theorem armTagRest_rel {c : Cfg} {a b : Sc} {o : Nat} (h : SameH a b) :
    Rel c (armTagRest c a o) (armTagRest c b o) := by
  obtain ⟨tt, o', e, rfl⟩ := h.elim
  unfold armTagRest
  simp only [adv, rest, peek]
  refine .ite (fun _ => ?_) fun _ => .ite (fun _ => ?_) fun _ => .ite (fun _ => ?_) fun _ => ?_
    <;> rel_same

theorem armTag_rel {c : Cfg} {a b : Sc} {o : Nat} (h : SameH a b) :
    Rel c (armTag c a o) (armTag c b o) := by
  obtain ⟨tt, o', e, rfl⟩ := h.elim
  unfold armTag
  rw [nextAttributeName_bind, nextAttributeName_bind]
  simp only [adv, rest, peek, sliceFrom, Option.isSome_none, Option.isSome_some,
    Bool.false_eq_true, if_false, if_true]
  refine .ite (fun _ => ?_) fun _ => .ite (fun _ => .bind fun r _ => .ite (fun _ => .ite
    (fun _ => ?_) fun _ => ?_) fun _ => ?_) fun _ => ?_
  · rel_same
  · exact armTagRest_rel ⟨rfl, rfl, rfl, rfl, rfl, rfl⟩
  · exact armTagRest_rel ⟨rfl, rfl, rfl, rfl, rfl, rfl⟩
  · rel_same
  · exact armTagRest_rel ⟨rfl, rfl, rfl, rfl, rfl, rfl⟩

theorem internalTag_rel {c : Cfg} {a b : Sc} (h : SameH a b) :
    Rel c (internalTag c a) (internalTag c b) := by
  obtain ⟨tt, o', e, rfl⟩ := h.elim
  unfold internalTag
  simp only [eos]
  refine .ite (fun _ => ?_) fun _ => armTag_rel h
  rel_same

theorem armAfterAttributeName_rel {c : Cfg} {a b : Sc} {o : Nat} (h : SameH a b) :
    Rel c (armAfterAttributeName c a o) (armAfterAttributeName c b o) := by
  obtain ⟨tt, o', e, rfl⟩ := h.elim
  unfold armAfterAttributeName
  simp only [adv, rest, peek]
  refine .ite (fun _ => ?_) fun _ => .ite (fun _ => ?_) fun _ => ?_
  · rel_same
  · rel_same
  · exact internalTag_rel ⟨rfl, rfl, rfl, rfl, rfl, rfl⟩

theorem rememberQuoted_bind {c : Cfg} {s : Sc} {o : Nat} {f : Sc → R Sc} :
    (rememberQuoted c s o >>= f) =
      if s.lastAttr = some b!"type" then
        (do
          let e ← subU s.pos 1
          let v ← (if o + 1 > e then sliceStr c.src e (o + 1) else sliceStr c.src (o + 1) e)
          f { s with lastType := nonEmpty v })
      else f s := by
  unfold rememberQuoted
  split
  · cases subU s.pos 1 with
    | error e => rfl
    | ok e =>
      simp only [bind, Except.bind]
      split <;> split <;> simp_all
  · rfl

theorem armQuotedValue_rel {c : Cfg} {a b : Sc} {o : Nat} (h : SameH a b) :
    Rel c (armQuotedValue c a o) (armQuotedValue c b o) := by
  obtain ⟨tt, o', e, rfl⟩ := h.elim
  unfold armQuotedValue
  simp only [adv, rest, peek]
  cases c.src[a.pos]? with
  | none => exact internalTag_rel ⟨rfl, rfl, rfl, rfl, rfl, rfl⟩
  | some ch =>
    refine .ite (fun _ => ?_) fun _ => internalTag_rel ⟨rfl, rfl, rfl, rfl, rfl, rfl⟩
    rw [rememberQuoted_bind, rememberQuoted_bind]
    by_cases hq : c.src[a.pos + 1 + untilByte ch (List.drop (a.pos + 1) c.src)]? = some ch
    · simp only [hq, if_true]
      refine .ite (fun _ => .bind fun e _ => .bind fun v _ => ?_) fun _ => ?_ <;> rel_same
    · simp only [hq, if_false]
      refine .ite (fun _ => .bind fun e _ => .bind fun v _ => ?_) fun _ => ?_ <;> rel_same

theorem armBeforeAttributeValue_rel {c : Cfg} {a b : Sc} {o : Nat} (h : SameH a b) :
    Rel c (armBeforeAttributeValue c a o) (armBeforeAttributeValue c b o) := by
  obtain ⟨tt, o', e, rfl⟩ := h.elim
  unfold armBeforeAttributeValue
  simp only [adv, rest, peek, peekPrev, sliceFrom]
  refine .ite (fun _ => ?_) fun _ => .bind fun r _ => .ite (fun _ => ?_) fun _ => .bind fun v1 _ => ?_
  · rel_same
  · exact armQuotedValue_rel ⟨rfl, rfl, rfl, rfl, rfl, rfl⟩
  · rcases Bool.eq_false_or_eq_true (c.src[a.pos]? == some 62 &&
        (if a.pos = 0 then none else c.src[a.pos - 1]?) == some 47) with hg | hg <;>
      rcases Bool.eq_false_or_eq_true (c.src[a.pos + unquotedLen r]? == some 39 ||
        c.src[a.pos + unquotedLen r]? == some 34) with hq | hq <;>
      by_cases ht : a.lastAttr = some b!"type" <;>
      simp only [hg, hq, ht, Bool.false_eq_true, if_false, if_true] <;>
      refine .bind fun v2 _ => ?_
    all_goals try simp only [goBack]
    all_goals first
      | (cases subU _ 1 with
         | error e => exact .error e
         | ok p =>
           refine .ite (fun _ => ?_) fun _ => armQuotedValue_rel ⟨rfl, rfl, rfl, rfl, rfl, rfl⟩
           rel_same)
      | (refine .ite (fun _ => ?_) fun _ => armQuotedValue_rel ⟨rfl, rfl, rfl, rfl, rfl, rfl⟩
         rel_same)

/-- The special case of a nameless start tag: the next byte is `>`. -/
theorem armTag_close {c : Cfg} {a : Sc} {o : Nat} (h : (rest c a).head? = some 62)
    (ht : a.lastTag = none) : ∃ s', armTag c a o = .ok s' ∧
      s'.tok = ⟨.StartTagClose, o, a.pos + 1, none, .WithinContent⟩ := by
  obtain ⟨t, ht2⟩ := head_cons h
  have hw : wsLen (rest c a) = 0 := by rw [ht2]; rfl
  have hpk : peek c a = some 62 := by rw [peek_eq_head]; exact h
  have hsc : (b!"/>").isPrefixOf (rest c a) = false := by rw [ht2]; rfl
  have hbd : isBoundary c.src a.pos = true := by
    have : c.src[a.pos]? = some 62 := hpk
    exact isBoundary_of_get this (by decide)
  have hn : attrNameLen (rest c a) = 0 := by rw [ht2]; rfl
  have key : ∀ a' : Sc, a'.pos = a.pos → a'.lastTag = none → ∃ s', armTagRest c a' o = .ok s' ∧
      s'.tok = ⟨.StartTagClose, o, a.pos + 1, none, .WithinContent⟩ := by
    intro a' hp hl
    have hr : rest c a' = rest c a := by simp [rest, hp]
    have hk : peek c a' = some 62 := by simp only [peek, hp]; exact hpk
    unfold armTagRest
    rw [hr, hsc, hk]
    refine ⟨_, rfl, ?_⟩
    simp [Sc.tok, fin, adv, hp, afterStartTag, hl]
  unfold armTag
  rw [nextAttributeName_bind]
  simp only [hw, sliceFrom_eq hbd, gt_iff_lt, Nat.lt_irrefl, if_false]
  split
  · simp only [bind, Except.bind, hn, if_true, Option.isSome_none, Bool.false_eq_true, if_false]
    split
    · exact key _ rfl ht
    · exact key _ rfl ht
  · exact key _ rfl ht

theorem armAfterOpeningStartTag_rel {c : Cfg} {a b : Sc} (h : a.pos = b.pos)
    (ha : a.state = .AfterOpeningStartTag) (hb : b.state = .AfterOpeningStartTag)
    (hp : a.pos < c.src.length) :
    Rel c (armAfterOpeningStartTag c a a.pos) (armAfterOpeningStartTag c b a.pos) := by
  unfold armAfterOpeningStartTag
  rw [nextElementName_bind, nextElementName_bind]
  simp only [adv, rest, sliceFrom, ← h, Option.isSome_none, Option.isSome_some,
    Bool.false_eq_true, if_false, if_true]
  have hle := untilByte_le 62 (c.src.drop a.pos)
  refine .bind fun r hr => .ite (fun _ => .ite (fun _ => ?_) fun _ => .ite (fun _ => ?_) fun _ => ?_)
    fun _ => ?_
  · rel_done
  · refine .ok (by simp [Sc.tok, fin]) (fun _ => .inr ⟨rfl, rfl, rfl, ?_⟩)
    simp only [fin, rest]
    by_cases hlt : untilByte 62 (c.src.drop a.pos) < (c.src.drop a.pos).length
    · right
      have := untilByte_get hlt
      simpa [List.drop_drop] using this
    · left
      simp at hlt hle ⊢; omega
  · rename_i hlt
    have h0 : untilByte 62 (c.src.drop a.pos) = 0 := by omega
    rw [h0]
    have h62 : (c.src.drop a.pos).head? = some 62 := by
      have := untilByte_get (c := 62) (s := c.src.drop a.pos) (by simp; omega)
      rw [h0] at this; simpa using this
    unfold internalTag
    simp only [eos, Nat.add_zero, Nat.not_le.2 hp, decide_false, Bool.false_eq_true, if_false]
    obtain ⟨s1, e1, k1⟩ := armTag_close (c := c) (a := { a with lastTag := none, lastType := none, lastAttr := none, state := .WithinTag }) (o := a.pos) h62 rfl
    obtain ⟨s2, e2, k2⟩ := armTag_close (c := c) (a := { b with pos := a.pos, lastTag := none, lastType := none, lastAttr := none, state := .WithinTag }) (o := a.pos) h62 rfl
    have e2' : armTag c { b with pos := a.pos, lastTag := none, lastType := none, lastAttr := none, state := .WithinTag } a.pos = Except.ok s2 := e2
    rw [e1, e2']
    refine .ok (by rw [k1, k2]) ?_
    have := congrArg Tok.state k1
    simp only [Sc.tok] at this
    simp [Hid, this]
  · rel_same

theorem internalScan_rel {c : Cfg} {a b : Sc} (h : Eqv c a b) :
    Rel c (internalScan c a) (internalScan c b) := by
  obtain ⟨h1, h2, h3⟩ := h
  unfold internalScan
  simp only [eos, ← h1, ← h2]
  by_cases hp : c.src.length ≤ a.pos
  · simp only [hp, decide_true, if_true]
    exact .ok (by simp [Sc.tok, fin, h1, h2]) (by
      intro hs
      rcases h3 hs with h4 | ⟨h4, h5, h6, _⟩
      · exact .inl h4
      · exact .inr ⟨h4, h5, h6, .inl hp⟩)
  simp only [hp, decide_false, Bool.false_eq_true, if_false]
  have same : (a.state = .AfterAttributeName ∨ a.state = .BeforeAttributeValue) → SameH a b := by
    intro hs
    rcases h3 (.inr hs) with h | h
    · exact ⟨h1, h2, h⟩
    · rw [h.1] at hs; simp at hs
  cases hs : a.state <;> simp only
  · exact armContent_rel h2 hs (h1 ▸ hs)
  · exact armAfterOpeningStartTag_rel h2 hs (h1 ▸ hs) (Nat.not_le.1 hp)
  · exact armAfterOpeningEndTag_rel h2 hs (h1 ▸ hs)
  · exact armDoctype_rel h2 hs (h1 ▸ hs)
  · rcases h3 (.inl hs) with h | ⟨_, h4, h5, h6⟩
    · exact armTag_rel ⟨h1, h2, h⟩
    · rcases h6 with h6 | h6
      · exact absurd h6 hp
      · obtain ⟨s1, e1, k1⟩ := armTag_close (o := a.pos) h6 h4
        have h6' : (rest c b).head? = some 62 := by rw [← h6]; simp [rest, h2]
        obtain ⟨s2, e2, k2⟩ := armTag_close (o := a.pos) h6' h5
        rw [e1, e2]
        refine .ok (by rw [k1, k2, h2]) ?_
        have := congrArg Tok.state k1
        simp only [Sc.tok] at this
        simp [Hid, this]
  · exact armEndTag_rel h2 hs (h1 ▸ hs)
  · exact armComment_rel h2 hs (h1 ▸ hs)
  · exact armScript_rel h2 hs (h1 ▸ hs)
  · exact armStyle_rel h2
  · exact armAfterAttributeName_rel (same (.inl hs))
  · exact armBeforeAttributeValue_rel (same (.inr hs))

theorem tokensF_eqv {c : Cfg} {f : Nat} {a b : Sc} (h : Eqv c a b) :
    tokensF c f a = tokensF c f b := by
  induction f generalizing a b with
  | zero => rfl
  | succ f ih =>
    unfold tokensF
    rw [scan_eq_internalScan, scan_eq_internalScan]
    have hr := internalScan_rel h
    revert hr
    generalize internalScan c a = x
    generalize internalScan c b = y
    intro hr
    cases hr with
    | error e => rfl
    | @ok a b ht hh =>
      have htt : a.tokenType = b.tokenType := congrArg Tok.type ht
      have hi := ih (a := a) (b := b) ⟨congrArg Tok.state ht, congrArg Tok.stop ht, hh⟩
      show (if a.tokenType = .EOS then pure [] else do
          return a.tok :: (← tokensF c f a)) = (if b.tokenType = .EOS then pure [] else do
          return b.tok :: (← tokensF c f b) : R (List Tok))
      rw [htt, ht, hi]

end Html
