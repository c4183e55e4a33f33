import Verif.Proof.EditPanics
import Verif.Proof.RenamedPanics
import Verif.Proof.AcceptTag

/-! # Behind the name of a start tag, the scanner only cares whether the name is `script` or `style` -/

namespace Html
open Spec

/-- Not the name of an element with raw content. -/
def PlainTag (l : Option Str) : Prop := l ≠ some b!"script" ∧ l ≠ some b!"style"

/-- All fields but the last token and the name of the last tag agree. -/
structure SameN (a b : Sc) : Prop where
  state : a.state = b.state
  pos : a.pos = b.pos
  space : a.hasSpace = b.hasSpace
  attr : a.lastAttr = b.lastAttr
  type : a.lastType = b.lastType
  left : PlainTag a.lastTag
  right : PlainTag b.lastTag

theorem SameN.elim {a b : Sc} (h : SameN a b) :
    ∃ tt o e l, PlainTag l ∧ b = { a with tokenType := tt, tokenOffset := o, tokenError := e, lastTag := l } := by
  obtain ⟨h1, h2, h3, h4, h5, h6, h7⟩ := h
  refine ⟨b.tokenType, b.tokenOffset, b.tokenError, b.lastTag, h7, ?_⟩
  cases a; cases b; simp_all

/-- Results that look alike. -/
inductive RelN : R Sc → R Sc → Prop
  | ok {a b : Sc} (h : a.tok = b.tok)
      (hh : (a.state = .WithinTag ∨ a.state = .AfterAttributeName ∨ a.state = .BeforeAttributeValue) → SameN a b) :
      RelN (.ok a) (.ok b)
  | error (e : Panic) : RelN (.error e) (.error e)

theorem RelN.ite {p : Prop} [Decidable p] {x x' y y' : R Sc}
    (h1 : p → RelN x x') (h2 : ¬ p → RelN y y') : RelN (if p then x else y) (if p then x' else y') := by
  by_cases hp : p
  · rw [if_pos hp, if_pos hp]; exact h1 hp
  · rw [if_neg hp, if_neg hp]; exact h2 hp

theorem RelN.bind {α : Type} {x : R α} {f g : α → R Sc} (h : ∀ a, x = .ok a → RelN (f a) (g a)) :
    RelN (x >>= f) (x >>= g) := by
  cases x with
  | error e => exact .error e
  | ok a => exact h a rfl

theorem afterStartTag_plain {s : Sc} (h : PlainTag s.lastTag) : afterStartTag s = .WithinContent := by
  unfold afterStartTag
  rw [if_neg h.1, if_neg h.2]

/-- Both sides are finished tokens. -/
macro "reln" : tactic => `(tactic| exact RelN.ok (by simp [Sc.tok, fin]) (fun _ => by constructor <;> first | rfl | assumption))

variable {c : Cfg} {a b : Sc} {o : Nat}

theorem armTagRest_reln (h : SameN a b) : RelN (armTagRest c a o) (armTagRest c b o) := by
  have hl := h.left
  obtain ⟨tt, o', e, l, hr, rfl⟩ := h.elim
  unfold armTagRest
  simp only [adv, rest, peek]
  rw [afterStartTag_plain hl, afterStartTag_plain hr]
  refine .ite (fun _ => ?_) fun _ => .ite (fun _ => ?_) fun _ => .ite (fun _ => ?_) fun _ => ?_ <;> reln

theorem armTag_reln (h : SameN a b) : RelN (armTag c a o) (armTag c b o) := by
  have hl := h.left
  obtain ⟨tt, o', e, l, hr, rfl⟩ := h.elim
  unfold armTag
  rw [nextAttributeName_bind, nextAttributeName_bind]
  simp only [adv, rest, peek, sliceFrom, Option.isSome_none, Option.isSome_some,
    Bool.false_eq_true, if_false, if_true]
  refine .ite (fun _ => ?_) fun _ => .ite (fun _ => .bind fun r _ => .ite (fun _ => .ite
    (fun _ => ?_) fun _ => ?_) fun _ => ?_) fun _ => ?_
  · reln
  · exact armTagRest_reln ⟨rfl, rfl, rfl, rfl, rfl, hl, hr⟩
  · exact armTagRest_reln ⟨rfl, rfl, rfl, rfl, rfl, hl, hr⟩
  · reln
  · exact armTagRest_reln ⟨rfl, rfl, rfl, rfl, rfl, hl, hr⟩

theorem internalTag_reln (h : SameN a b) : RelN (internalTag c a) (internalTag c b) := by
  have hl := h.left
  obtain ⟨tt, o', e, l, hr, rfl⟩ := h.elim
  unfold internalTag
  simp only [eos]
  refine .ite (fun _ => ?_) fun _ => armTag_reln h
  reln

theorem armAfterAttributeName_reln (h : SameN a b) : RelN (armAfterAttributeName c a o) (armAfterAttributeName c b o) := by
  have hl := h.left
  obtain ⟨tt, o', e, l, hr, rfl⟩ := h.elim
  unfold armAfterAttributeName
  simp only [adv, rest, peek]
  refine .ite (fun _ => ?_) fun _ => .ite (fun _ => ?_) fun _ => ?_
  · reln
  · reln
  · exact internalTag_reln ⟨rfl, rfl, rfl, rfl, rfl, hl, hr⟩

theorem armQuotedValue_reln (h : SameN a b) : RelN (armQuotedValue c a o) (armQuotedValue c b o) := by
  have hl := h.left
  obtain ⟨tt, o', e, l, hr, rfl⟩ := h.elim
  unfold armQuotedValue
  simp only [adv, rest, peek]
  cases c.src[a.pos]? with
  | none => exact internalTag_reln ⟨rfl, rfl, rfl, rfl, rfl, hl, hr⟩
  | some ch =>
    refine .ite (fun _ => ?_) fun _ => internalTag_reln ⟨rfl, rfl, rfl, rfl, rfl, hl, hr⟩
    rw [rememberQuoted_bind, rememberQuoted_bind]
    by_cases hq : c.src[a.pos + 1 + untilByte ch (List.drop (a.pos + 1) c.src)]? = some ch
    · simp only [hq, if_true]
      refine .ite (fun _ => .bind fun e _ => .bind fun v _ => ?_) fun _ => ?_ <;> reln
    · simp only [hq, if_false]
      refine .ite (fun _ => .bind fun e _ => .bind fun v _ => ?_) fun _ => ?_ <;> reln

theorem armBeforeAttributeValue_reln (h : SameN a b) :
    RelN (armBeforeAttributeValue c a o) (armBeforeAttributeValue c b o) := by
  have hl := h.left
  obtain ⟨tt, o', e, l, hr, rfl⟩ := h.elim
  unfold armBeforeAttributeValue
  simp only [adv, rest, peek, peekPrev, sliceFrom]
  refine .ite (fun _ => ?_) fun _ => .bind fun r _ => .ite (fun _ => ?_) fun _ => .bind fun v1 _ => ?_
  · reln
  · exact armQuotedValue_reln ⟨rfl, rfl, rfl, rfl, rfl, hl, hr⟩
  · rcases Bool.eq_false_or_eq_true (c.src[a.pos]? == some 62 &&
        (if a.pos = 0 then none else c.src[a.pos - 1]?) == some 47) with hg | hg <;>
      rcases Bool.eq_false_or_eq_true (c.src[a.pos + unquotedLen r]? == some 39 ||
        c.src[a.pos + unquotedLen r]? == some 34) with hq | hq <;>
      by_cases ht : a.lastAttr = some b!"type" <;>
      simp only [hg, hq, ht, Bool.false_eq_true, if_false, if_true] <;>
      refine .bind fun v2 _ => ?_
    all_goals try simp only [goBack]
    all_goals first
      | (cases subU _ 1 with
         | error e => exact .error e
         | ok p =>
           refine .ite (fun _ => ?_) fun _ => armQuotedValue_reln ⟨rfl, rfl, rfl, rfl, rfl, hl, hr⟩
           reln)
      | (refine .ite (fun _ => ?_) fun _ => armQuotedValue_reln ⟨rfl, rfl, rfl, rfl, rfl, hl, hr⟩
         reln)

/-- In a start tag the name matters only if it is that of an element with raw content. -/
theorem scan_reln (h : SameN a b) (hs : a.state = .WithinTag ∨ a.state = .AfterAttributeName ∨ a.state = .BeforeAttributeValue) :
    RelN (scan c a) (scan c b) := by
  rw [scan_eq_internalScan, scan_eq_internalScan]
  unfold internalScan
  simp only [eos, ← h.state, ← h.pos]
  refine .ite (fun _ => ?_) fun _ => ?_
  · exact .ok (by simp [Sc.tok, fin, h.state, h.pos]) (fun _ => ⟨h.state, h.pos, h.space, h.attr, h.type, h.left, h.right⟩)
  · rcases hs with hs | hs | hs <;> rw [hs] <;> simp only
    · exact armTag_reln h
    · exact armAfterAttributeName_reln h
    · exact armBeforeAttributeValue_reln h

theorem tokensF_reln {f : Nat} (h : SameN a b)
    (hs : a.state = .WithinTag ∨ a.state = .AfterAttributeName ∨ a.state = .BeforeAttributeValue) :
    tokensF c f a = tokensF c f b := by
  induction f generalizing a b with
  | zero => rfl
  | succ f ih =>
    unfold tokensF
    have hr := scan_reln (c := c) h hs
    revert hr
    generalize scan c a = x
    generalize scan c b = y
    intro hr
    cases hr with
    | error e => rfl
    | @ok a b ht hh =>
      have htt : a.tokenType = b.tokenType := congrArg Tok.type ht
      have hi : tokensF c f a = tokensF c f b := by
        by_cases hst : a.state = .WithinTag ∨ a.state = .AfterAttributeName ∨ a.state = .BeforeAttributeValue
        · exact ih (hh hst) hst
        · exact tokensF_eqv ⟨congrArg Tok.state ht, congrArg Tok.stop ht, fun h => absurd h hst⟩
      show (if a.tokenType = .EOS then pure [] else do
          return a.tok :: (← tokensF c f a)) = (if b.tokenType = .EOS then pure [] else do
          return b.tok :: (← tokensF c f b) : R (List Tok))
      rw [htt, ht, hi]

theorem scan_tagName {s : Sc} {name y : Str} (hs : s.state = .AfterOpeningStartTag) (hr : rest c s = name ++ y)
    (hn : TagName name) (hy : NameEnds y) (hb : isBoundary c.src s.pos = true) :
    scan c s = .ok (fin { s with
      pos := s.pos + name.length, state := .WithinTag, hasSpace := false
      lastTag := some (keptName c name), lastType := none, lastAttr := none } s.pos .StartTag none) := by
  have hlen : elementNameLen c.uni (rest c s) = name.length := by rw [hr]; exact nameLen_ends hn hy
  have hpos : 0 < name.length := by obtain ⟨⟨b, k, rfl, hb⟩, _⟩ := hn; simp
  have hl := pos_lt_of_name (c := c) (s := s) (by omega)
  rw [scan_eq_internalScan]
  unfold internalScan
  rw [if_neg (by simp [eos]; omega), hs]
  simp only [armAfterOpeningStartTag, nextElementName]
  rw [sliceFrom_eq hb]
  simp only [bind, Except.bind, pure, Except.pure]
  rw [if_neg (by omega), hlen, hr]
  simp [keptName, adv, fin]

/-- A scanner in a start tag, behind a name. -/
def inTag (lt : Option Str) : Sc := { Sc.new 0 .WithinTag with lastTag := lt }

theorem broken_name {u : Uni} {cs : Bool} {name y : Str} (hn : TagName name) (hy : NameEnds y) :
    Broken u cs .WithinContent (60 :: (name ++ y)) ↔
      ∃ e, tokens (parserCfg u cs y) (inTag (some (keptName (parserCfg u cs y) name))) = .error e := by
  have hpos : 0 < name.length := by obtain ⟨⟨b, k, rfl, hb⟩, _⟩ := hn; simp
  obtain ⟨b, k, e, hb⟩ := id hn.1
  have hb1 : b < 128 := hn.ascii b (by rw [e]; simp)
  have hc : parserCfg u cs (60 :: (name ++ y)) = (parserCfg u cs y).behind (60 :: name) := rfl
  have h1 := scan_ltOpen (c := parserCfg u cs (60 :: (name ++ y))) (s := .new 0 .WithinContent) (b := b) (r := k ++ y) rfl
    (by simp [rest, parserCfg, Sc.new, e]) (by rintro rfl; revert hb; simp [NameStartByte, alnum])
    (by rintro rfl; revert hb; simp [NameStartByte, alnum])
  have h2 := scan_tagName (c := parserCfg u cs (60 :: (name ++ y)))
    (s := fin { adv (.new 0 .WithinContent) 1 with state := .AfterOpeningStartTag } 0 .StartTagOpen none) (name := name) (y := y)
    rfl (by simp [rest, parserCfg, fin, adv, Sc.new]) hn hy
    (isBoundary_ascii (b := b) (by simp [parserCfg, fin, adv, Sc.new, e]) hb1)
  have hrun := (Run.cons h1 (by simp [fin]) (.cons h2 (by simp [fin]) (.nil _))).tokensF (2 * (1 + name.length + y.length))
  unfold Broken
  have hf : tokens (parserCfg u cs (60 :: (name ++ y))) (.new 0 .WithinContent) =
      tokensF (parserCfg u cs (60 :: (name ++ y))) (2 + 2 * (1 + name.length + y.length)) (.new 0 .WithinContent) := by
    unfold tokens; congr 1; simp [parserCfg, Sc.new]; omega
  rw [hf]
  simp only [List.length_cons, List.length_nil] at hrun
  rw [show (2 + 2 * (1 + name.length + y.length)) = 0 + 1 + 1 + 2 * (1 + name.length + y.length) by omega, hrun]
  have hs := tokens_shift (c := parserCfg u cs y) (pre := 60 :: name) (s := inTag (some (keptName (parserCfg u cs y) name)))
  rw [← hc] at hs
  have hfuel : ∀ s : Sc, s.state = .WithinTag → s.pos = 1 + name.length →
      tokensF (parserCfg u cs (60 :: (name ++ y))) (2 * (1 + name.length + y.length)) s =
        tokens (parserCfg u cs (60 :: (name ++ y))) s := by
    intro s hs hp
    have hm : mu (parserCfg u cs (60 :: (name ++ y))) s = 2 * y.length := by
      unfold mu; rw [if_neg (by rw [hs]; decide), hp]; simp [parserCfg]; omega
    have e1 := tokensF_fuel (c := parserCfg u cs (60 :: (name ++ y))) (s := s) (f := 2 * y.length + 1) (by omega) (2 * name.length + 1)
    have e2 := tokensF_fuel (c := parserCfg u cs (60 :: (name ++ y))) (s := s) (f := 2 * y.length + 1) (by omega) 1
    unfold tokens
    rw [show 2 * (1 + name.length + y.length) = 2 * y.length + 1 + (2 * name.length + 1) by omega, e1, ← e2]
    congr 1
    rw [hp]; simp [parserCfg]; omega
  rw [hfuel _ rfl (by simp [fin, adv, Sc.new])]
  have he : ∀ a : Sc, a.state = .WithinTag → a.pos = 1 + name.length → a.hasSpace = false →
      a.lastTag = some (keptName (parserCfg u cs y) name) → a.lastAttr = none → a.lastType = none →
      tokens (parserCfg u cs (60 :: (name ++ y))) a =
        (tokens (parserCfg u cs y) (inTag (some (keptName (parserCfg u cs y) name)))).map (List.map (Tok.shift (60 :: name).length)) := by
    intro a h1 h2 h3 h4 h5 h6
    rw [← hs]
    have hp : a.pos = ((inTag (some (keptName (parserCfg u cs y) name))).shift (60 :: name).length).pos := by
      rw [h2]; simp [Sc.new, inTag, Sc.shift]; omega
    unfold tokens
    rw [hp]
    exact tokensF_eqv ⟨h1, hp, fun _ => .inl ⟨h3, h4, h5, h6⟩⟩
  rw [he _ rfl (by simp [fin, adv, Sc.new]) rfl rfl rfl rfl]
  cases tokens (parserCfg u cs y) (inTag (some (keptName (parserCfg u cs y) name))) <;> simp [Except.map]

theorem keptName_plain {name : Str} (h : LegalName name) : PlainTag (some (keptName c name)) :=
  ⟨fun e => keptName_ne (h.1.ascii) (by decide) h.2.1 (Option.some.inj e),
    fun e => keptName_ne (h.1.ascii) (by decide) h.2.2 (Option.some.inj e)⟩

/-- Another name for a start tag: the scanner panics on both texts or on none. -/
theorem broken_other {u : Uni} {cs : Bool} {w name y : Str} (hw : LegalName w) (hn : LegalName name) (hy : NameEnds y) :
    Broken u cs .WithinContent (60 :: (w ++ y)) ↔ Broken u cs .WithinContent (60 :: (name ++ y)) := by
  rw [broken_name hw.1 hy, broken_name hn.1 hy]
  have h : tokens (parserCfg u cs y) (inTag (some (keptName (parserCfg u cs y) w))) =
      tokens (parserCfg u cs y) (inTag (some (keptName (parserCfg u cs y) name))) :=
    tokensF_reln ⟨rfl, rfl, rfl, rfl, rfl, keptName_plain hw, keptName_plain hn⟩ (.inl rfl)
  rw [h]

theorem other_parsed {void : List Str} {u : Uni} {cs : Bool} {a w name y : Str} (ha : EndsInContent u cs a) (hw : LegalName w) (hn : LegalName name)
    (hy : NameEnds y) (he : Enc (a ++ 60 :: (w ++ y))) :
    (∃ e, parse u cs void (a ++ 60 :: (name ++ y)) = .error e) ↔ ∃ e, parse u cs void (a ++ 60 :: (w ++ y)) = .error e := by
  have he' : Enc (a ++ 60 :: (name ++ y)) := by
    have := enc_replace (x := a ++ [60]) (w := w) (w' := name) (y := y) (by simpa using he) hw.1 hn.1
    simpa using this
  obtain ⟨cps, hu⟩ := he
  obtain ⟨cps', hu'⟩ := he'
  rw [← broken_iff hu, ← broken_iff hu', content_broken ha hu, content_broken ha hu', broken_other hw hn hy]

end Html
