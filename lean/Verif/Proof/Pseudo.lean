import Verif.Proof.Restart
import Verif.Proof.Local

/-! # Scanning with and without pseudo-closing tokens -/

namespace Html
open Spec

/-- The same configuration without pseudo-closing tokens. -/
def Cfg.plain (c : Cfg) : Cfg := { c with emitPseudo := false }

/-- Results that agree, or differ because the first is a pseudo-closing token. -/
inductive PRel (p : Nat) : R Sc → R Sc → Prop
  | same (x : R Sc) : PRel p x x
  | pseudo (a b : Sc) (ha : a.tokenType = .StartTagClose ∨ a.tokenType = .EndTagClose) (hp : a.pos = p)
      (hb : b.tokenType = .Unknown) (hq : b.pos = p + 1) : PRel p (.ok a) (.ok b)

theorem PRel.ite {n : Nat} {p : Prop} [Decidable p] {x x' y y' : R Sc}
    (h1 : p → PRel n x x') (h2 : ¬ p → PRel n y y') :
    PRel n (if p then x else y) (if p then x' else y') := by
  by_cases hp : p
  · rw [if_pos hp, if_pos hp]; exact h1 hp
  · rw [if_neg hp, if_neg hp]; exact h2 hp

theorem PRel.bind {n : Nat} {α : Type} {x : R α} {f g : α → R Sc}
    (h : ∀ a, x = .ok a → PRel n (f a) (g a)) : PRel n (x >>= f) (x >>= g) := by
  cases x with
  | error e => exact .same _
  | ok a => exact h a rfl

variable {c : Cfg}

theorem armTagRest_pseudo (s : Sc) (o : Nat) : PRel s.pos (armTagRest c s o) (armTagRest c.plain s o) := by
  unfold armTagRest
  refine .ite (fun _ => .same _) fun _ => .ite (fun _ => .same _) fun _ => ?_
  rw [if_neg (c := (c.plain.emitPseudo && peek c.plain s = some 60) = true) (by simp [Cfg.plain])]
  split
  · exact .pseudo _ _ (.inl rfl) rfl rfl rfl
  · exact .same _

theorem armTagRest_pseudo_at {s : Sc} {n : Nat} (o : Nat) (h : s.pos = n) :
    PRel n (armTagRest c s o) (armTagRest c.plain s o) := h ▸ armTagRest_pseudo s o

theorem armEndTag_pseudo (s : Sc) (o : Nat) : PRel s.pos (armEndTag c s o) (armEndTag c.plain s o) := by
  unfold armEndTag
  refine .ite (fun _ => .same _) fun _ => .ite (fun _ => .same _) fun _ => ?_
  rw [if_neg (c := (c.plain.emitPseudo && peek c.plain s = some 60) = true) (by simp [Cfg.plain])]
  split
  · exact .pseudo _ _ (.inr rfl) rfl rfl rfl
  · exact .same _

theorem armTag_pseudo (s : Sc) (o : Nat) : PRel s.pos (armTag c s o) (armTag c.plain s o) := by
  unfold armTag
  refine .ite (fun _ => .same _) fun _ => .ite (fun _ => ?_) fun _ => armTagRest_pseudo s o
  rw [nextAttributeName_bind, nextAttributeName_bind]
  refine .bind fun r _ => ?_
  show PRel s.pos (if attrNameLen r = 0 then _ else _) (if attrNameLen r = 0 then _ else _)
  refine .ite (fun _ => ?_) fun _ => .same _
  exact .ite (fun h => by cases h) fun _ => .ite (fun _ => armTagRest_pseudo_at o rfl)
    fun _ => armTagRest_pseudo_at o rfl

theorem internalTag_pseudo (s : Sc) : PRel s.pos (internalTag c s) (internalTag c.plain s) := by
  unfold internalTag
  exact .ite (fun _ => .same _) fun _ => armTag_pseudo s _

theorem internalEndTag_pseudo (s : Sc) : PRel s.pos (internalEndTag c s) (internalEndTag c.plain s) := by
  unfold internalEndTag
  exact .ite (fun _ => .same _) fun _ => armEndTag_pseudo s _

theorem armAfterOpeningEndTag_pseudo (s : Sc) :
    PRel s.pos (armAfterOpeningEndTag c s s.pos) (armAfterOpeningEndTag c.plain s s.pos) := by
  unfold armAfterOpeningEndTag
  rw [nextElementName_bind, nextElementName_bind]
  refine .bind fun r _ => ?_
  show PRel s.pos (if elementNameLen c.uni r = 0 then _ else _) (if elementNameLen c.uni r = 0 then _ else _)
  refine .ite (fun _ => .ite (fun h => by cases h) fun _ => .ite (fun _ => .same _) fun _ =>
    .ite (fun _ => .same _) fun h => ?_) fun _ => .same _
  have e : s.pos = s.pos + untilByte 62 (rest c s) := by
    have : ¬ s.pos < s.pos + untilByte 62 (rest c s) := h
    omega
  have := internalEndTag_pseudo (c := c)
    (adv { s with state := SS.WithinEndTag } (untilByte 62 (rest c { s with state := SS.WithinEndTag })))
  have hp : (adv { s with state := SS.WithinEndTag } (untilByte 62 (rest c { s with state := SS.WithinEndTag }))).pos
      = s.pos := e.symm
  rw [hp] at this
  exact this

theorem armAfterOpeningStartTag_pseudo (s : Sc) :
    PRel s.pos (armAfterOpeningStartTag c s s.pos) (armAfterOpeningStartTag c.plain s s.pos) := by
  unfold armAfterOpeningStartTag
  rw [nextElementName_bind, nextElementName_bind]
  refine .bind fun r _ => ?_
  show PRel s.pos (if elementNameLen c.uni r = 0 then _ else _) (if elementNameLen c.uni r = 0 then _ else _)
  refine .ite (fun _ => .ite (fun h => by cases h) fun _ => .ite (fun _ => .same _) fun _ =>
    .ite (fun _ => .same _) fun h => ?_) fun _ => .same _
  have e : s.pos = s.pos + untilByte 62 (rest c s) := by
    have : ¬ s.pos < s.pos + untilByte 62 (rest c s) := h
    omega
  have hx := fun s3 : Sc => internalTag_pseudo (c := c) s3
  refine (?_ : ∀ s3 : Sc, s3.pos = s.pos → PRel s.pos (internalTag c s3) (internalTag c.plain s3)) _ e.symm
  intro s3 h3
  have := hx s3
  rw [h3] at this
  exact this

theorem armAfterAttributeName_pseudo (s : Sc) (o : Nat) :
    PRel s.pos (armAfterAttributeName c s o) (armAfterAttributeName c.plain s o) := by
  unfold armAfterAttributeName
  exact .ite (fun _ => .same _) fun _ => .ite (fun _ => .same _) fun _ =>
    internalTag_pseudo { s with state := .WithinTag }

theorem armQuotedValue_pseudo (s : Sc) (o : Nat) : PRel s.pos (armQuotedValue c s o) (armQuotedValue c.plain s o) := by
  unfold armQuotedValue
  show PRel s.pos (match peek c s with | some ch => _ | none => _) (match peek c s with | some ch => _ | none => _)
  cases peek c s with
  | none => exact internalTag_pseudo { s with state := .WithinTag, hasSpace := false }
  | some ch =>
    exact .ite (fun _ => .same _) fun _ => internalTag_pseudo { s with state := .WithinTag, hasSpace := false }

theorem extendValue_pos {q : Bool} {p : Nat} {v v2 : Str} (hv : 0 < v.length)
    (h : extendValue c q p v = .ok v2) : 0 < v2.length := by
  unfold extendValue at h
  split at h
  · obtain ⟨a, ha, h⟩ := bind_ok h
    obtain ⟨a', ha', h⟩ := bind_ok h
    have h1 := subU_ok ha; have h2 := subU_ok ha'
    obtain ⟨_, hl, _, _, hv⟩ := sliceStr_ok h
    rw [hv, bytesIn_length hl]; omega
  · cases h; exact hv

theorem armBeforeAttributeValue_pseudo (s : Sc) (o : Nat) :
    PRel s.pos (armBeforeAttributeValue c s o) (armBeforeAttributeValue c.plain s o) := by
  unfold armBeforeAttributeValue
  refine .ite (fun _ => .same _) fun _ => .bind fun r hr => .ite (fun _ => armQuotedValue_pseudo s o) fun hn => ?_
  have hg : (peek c s == some 62 && peekPrev c s == some 47) = false := by
    rw [Bool.and_eq_false_iff]
    left
    rw [beq_eq_false_iff_ne]
    intro h
    apply hn
    rw [(sliceFrom_ok hr).1]
    have h3 : (rest c s).head? = some 62 := by rw [← peek_eq_head]; exact h
    obtain ⟨t, ht⟩ := head_cons h3
    rw [ht]; rfl
  show PRel s.pos (trimValue (peek c s == some 62 && peekPrev c s == some 47) _ >>= _)
    (trimValue (peek c s == some 62 && peekPrev c s == some 47) _ >>= _)
  rw [hg]
  refine .bind fun v1 h1 => ?_
  have hv1 : v1 = r.take (unquotedLen r) := by
    simp only [trimValue, Bool.false_eq_true, if_false, Except.ok.injEq] at h1
    exact h1.symm
  refine .bind fun v2 h2 => ?_
  have hv : 0 < v2.length := by
    refine extendValue_pos (v := v1) ?_ h2
    have hle : unquotedLen r ≤ r.length := firstRunLen_le _ _ _
    rw [hv1]; simp; omega
  simp only [Bool.false_eq_true, if_false, hv, if_true, gt_iff_lt, show peek c.plain = peek c from rfl,
    show peekPrev c.plain = peekPrev c from rfl, hg]
  exact .same _

theorem scriptLoop_plain (f st p : Nat) : scriptLoop c.plain f st p = scriptLoop c f st p := by
  induction f generalizing st p with
  | zero => rfl
  | succ f ih =>
    unfold scriptLoop
    show (if c.src.length ≤ p then _ else sliceStr c.src p c.src.length >>= _) = _
    simp only [ih]

theorem armScript_plain (s : Sc) (o : Nat) : armScript c.plain s o = armScript c s o := by
  unfold armScript
  rw [scriptLoop_plain]
  rfl

theorem internalScan_pseudo (s : Sc) : PRel s.pos (internalScan c s) (internalScan c.plain s) := by
  unfold internalScan
  refine .ite (fun _ => .same _) fun _ => ?_
  cases s.state <;> simp only
  case AfterOpeningStartTag => exact armAfterOpeningStartTag_pseudo s
  case AfterOpeningEndTag => exact armAfterOpeningEndTag_pseudo s
  case WithinTag => exact armTag_pseudo s _
  case WithinEndTag => exact armEndTag_pseudo s _
  case AfterAttributeName => exact armAfterAttributeName_pseudo s _
  case BeforeAttributeValue => exact armBeforeAttributeValue_pseudo s _
  case WithinScriptContent => rw [armScript_plain]; exact .same _
  all_goals exact .same _

/-- A scan without pseudo-closing tokens: the same, or an unknown `<` in the place of a pseudo-closing
token. -/
theorem scan_plain {s s1 : Sc} (h : scan c s = .ok s1) :
    (scan c.plain s = .ok s1 ∧ (s.pos < s1.pos ∨ s1.tokenType = .EOS)) ∨
      (s1.pos = s.pos ∧ (s1.tokenType = .StartTagClose ∨ s1.tokenType = .EndTagClose) ∧
        ∃ s2, scan c.plain s = .ok s2 ∧ s2.tokenType = .Unknown ∧ s2.pos = s.pos + 1) := by
  have hr := internalScan_pseudo (c := c) s
  rw [scan_eq_internalScan] at h
  rw [scan_eq_internalScan]
  rw [h] at hr
  generalize hx : internalScan c.plain s = x at hr
  cases hr with
  | same =>
    left
    refine ⟨rfl, ?_⟩
    rw [← scan_eq_internalScan] at hx
    by_cases he : s1.tokenType = .EOS
    · exact .inr he
    · exact .inl ((scan_step hx).advances rfl he)
  | pseudo _ b ha hp hb hq => exact .inr ⟨hp, ha, b, rfl, hb, hq⟩

end Html
