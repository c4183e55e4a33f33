import Verif.Proof.Local

/-! # Attribute tokens are kept apart by something -/

namespace Html
open Spec

/-- Attribute names and values from `lo` on, never touching each other; every value belongs to
the name before it (`nm`: there is one). -/
def AttrSeq : Nat → Bool → List Tok → Prop
  | _, _, [] => True
  | lo, nm, t :: ts =>
    if t.type = .AttributeName then lo ≤ t.offset ∧ t.offset < t.stop ∧ AttrSeq (t.stop + 1) true ts
    else if t.type = .AttributeValue then
      nm = true ∧ lo ≤ t.offset ∧ t.offset < t.stop ∧ AttrSeq (t.stop + 1) false ts
    else AttrSeq lo (nm && !isBracket t.type) ts

/-- What the scanner state says about the attribute tokens so far. -/
structure AttrInv (s : Sc) (lo : Nat) (nm : Bool) : Prop where
  le : lo ≤ s.pos + 1
  opn : s.state = .AfterOpeningStartTag → lo ≤ s.pos
  tag : s.state = .WithinTag → s.hasSpace = true → lo ≤ s.pos
  name : s.state = .AfterAttributeName → nm = true ∧ (s.hasSpace = true → lo ≤ s.pos)
  value : s.state = .BeforeAttributeValue → nm = true ∧ lo ≤ s.pos

variable {c : Cfg}

/-- What one step adds to the sequence. -/
def AttrStep (s s' : Sc) (lo : Nat) (nm : Bool) : Prop :=
  if s'.tokenType = .AttributeName then lo ≤ s.pos ∧ s.pos < s'.pos ∧ AttrInv s' (s'.pos + 1) true
  else if s'.tokenType = .AttributeValue then
    nm = true ∧ lo ≤ s.pos ∧ s.pos < s'.pos ∧ AttrInv s' (s'.pos + 1) false
  else AttrInv s' lo (nm && !isBracket s'.tokenType)

theorem AttrInv.content {s' : Sc} {lo : Nat} {nm : Bool} (h1 : lo ≤ s'.pos + 1)
    (h2 : s'.state.inStart = false) : AttrInv s' lo nm := by
  constructor <;> first | exact h1 | (intro h; rw [h] at h2; cases h2)

theorem StepContent.attrStep {a s s' : Sc} {lo : Nat} {nm : Bool} (h : StepContent c a s')
    (ha : a.state = .WithinContent) (hp : a.pos = s.pos) (hlo : lo ≤ s.pos + 1) : AttrStep s s' lo nm := by
  unfold AttrStep
  cases h with
  | startTagOpen h h2 h3 h4 =>
    simp only [fin, adv, hp, reduceCtorEq, if_false]
    constructor <;> simp <;> omega
  | _ =>
    simp only [fin, adv, hp, reduceCtorEq, if_false]
    exact AttrInv.content (by simp; omega) (by simp [SS.inStart, ha])

theorem TagPre.hs {a s1 : Sc} (h : TagPre c a s1) (h2 : s1.hasSpace = true) : a.hasSpace = true := by
  cases h with
  | noSpace h => exact h2
  | equals h hb hn he => cases h2
  | other h hb hn he => exact h2

theorem StepTag.attrStep {a s s' : Sc} {lo : Nat} {nm : Bool} (h : StepTag c a s')
    (ha : a.state = .WithinTag) (hp : a.pos = s.pos) (hlo : lo ≤ s.pos + 1)
    (hs : a.hasSpace = true → lo ≤ s.pos) : AttrStep s s' lo nm := by
  unfold AttrStep
  cases h with
  | ws h =>
    simp only [fin, adv, hp, reduceCtorEq, if_false]
    constructor <;> simp [ha] <;> omega
  | attrName h1 hw hb h =>
    simp only [fin, adv, hp, if_true]
    refine ⟨hs h1, by omega, ?_⟩
    constructor <;> simp
  | selfClose s1 hp1 h =>
    simp only [fin, adv, hp1.pos_eq, hp, reduceCtorEq, if_false]
    exact AttrInv.content (by simp; omega) rfl
  | close s1 hp1 h =>
    simp only [fin, adv, hp1.pos_eq, hp, reduceCtorEq, if_false]
    exact AttrInv.content (by simp; omega) (inStart_afterStartTag a)
  | pseudo s1 hp1 he h =>
    simp only [fin, reduceCtorEq, if_false]
    exact AttrInv.content (by simp [hp1.pos_eq]; omega) rfl
  | unknown s1 hp1 h0 h1 h2 h3 =>
    have e1 := hp1.pos_eq
    have e2 := hp1.state_eq
    simp only [fin, adv, reduceCtorEq, if_false]
    constructor <;> simp [e1, e2, ha, hp] <;> omega

theorem Step.attrStep {s s' : Sc} {lo : Nat} {nm : Bool} (h : Step c s s') (hne : s'.tokenType ≠ .EOS)
    (hi : AttrInv s lo nm) : AttrStep s s' lo nm := by
  have hle := hi.le
  have hadv : s.pos ≤ s'.pos := by
    have hsl : s.pos ≤ c.src.length := by
      rcases Nat.lt_or_ge c.src.length s.pos with h1 | h1
      · exact absurd (h.eos_iff.2 (by omega)) hne
      · exact h1
    exact (h.pos_le hsl).1
  cases h with
  | eos h => exact absurd rfl hne
  | content _ h hs hx => exact hx.attrStep hs rfl hle
  | endTag _ h hs hx =>
    unfold AttrStep
    cases hx <;> simp only [fin, adv, reduceCtorEq, if_false] <;>
      exact AttrInv.content (by simp; omega) (by simp [SS.inStart, hs])
  | tag _ h hs hx => exact hx.attrStep hs rfl hle (hi.tag hs)
  | afterNameTag _ h hs hw h0 hx => exact hx.attrStep rfl rfl hle (hi.name hs).2
  | valueTag _ h hs hw hb h0 h1 hx => exact hx.attrStep rfl rfl hle (fun _ => (hi.value hs).2)
  | scriptContent _ h hs hl hx => exact hx.attrStep rfl rfl hle
  | styleContent _ h hs hb h0 hx => exact hx.attrStep rfl rfl hle
  | script q st h hs hp hl hst =>
    unfold AttrStep
    simp only [fin, reduceCtorEq, if_false]
    refine AttrInv.content (by simp; omega) ?_
    rcases hst with ⟨e, _⟩ | ⟨e, _⟩ <;> rw [e] <;> rfl
  | startTagName h hs hb h0 =>
    have := hi.opn hs
    unfold AttrStep
    simp only [fin, adv, reduceCtorEq, if_false]
    constructor <;> simp <;> omega
  | startTagWs h hs hb hn h0 =>
    have := hi.opn hs
    unfold AttrStep
    simp only [fin, adv, reduceCtorEq, if_false]
    constructor <;> simp [hs] <;> omega
  | startTagNoName h hs hb hn hw h0 =>
    have := hi.opn hs
    unfold AttrStep
    simp only [fin, adv, reduceCtorEq, if_false]
    constructor <;> simp <;> omega
  | startTagImmediate h hs hb hn hw h0 =>
    unfold AttrStep
    simp only [fin, adv, reduceCtorEq, if_false]
    exact AttrInv.content (by simp; omega) rfl
  | afterNameWs h hs h0 =>
    have := hi.name hs
    unfold AttrStep
    simp only [fin, adv, reduceCtorEq, if_false]
    constructor <;> simp [hs, this.1, isBracket] <;> omega
  | assign h hs hw h0 =>
    have := hi.name hs
    unfold AttrStep
    simp only [fin, adv, reduceCtorEq, if_false]
    constructor <;> simp [this.1, isBracket] <;> omega
  | valueWs h hs h0 =>
    unfold AttrStep
    simp only [fin, adv, reduceCtorEq, if_false]
    constructor <;> simp <;> omega
  | valueUnquoted h hs hw hb h0 =>
    have := hi.value hs
    have h1 := unquotedFullLen_ge (rest c s)
    unfold AttrStep
    simp only [fin, adv, reduceCtorEq, if_false, if_true]
    refine ⟨this.1, this.2, by omega, ?_⟩
    constructor <;> simp
  | valueQuoted h hs hw hb h0 q hq h1 =>
    have := hi.value hs
    have h2 := quotedLen_le (q := q) (rest_ne_nil h)
    unfold AttrStep
    simp only [fin, adv, reduceCtorEq, if_false, if_true]
    refine ⟨this.1, this.2, by omega, ?_⟩
    constructor <;> simp
  | _ =>
    unfold AttrStep
    simp only [fin, adv, reduceCtorEq, if_false] at hadv ⊢
    refine AttrInv.content (by simp; omega) ?_
    simp only [SS.inStart]
    try (rename_i hs _; simp [hs])
    try (rename_i hs _ _; simp [hs])
    try (rename_i hs _ _ _; simp [hs])

theorem Run.attrSeq {s s2 : Sc} {ts : List Tok} {lo : Nat} {nm : Bool} (h : Run c s ts s2)
    (hi : AttrInv s lo nm) : AttrSeq lo nm ts := by
  induction h generalizing lo nm with
  | nil s => trivial
  | @cons s s1 s2 ts h hne hr ih =>
    have hst := (scan_step h).attrStep hne hi
    have hoff : s1.tok.offset = s.pos := (scan_step h).offset_eq
    have hstop : s1.tok.stop = s1.pos := rfl
    have hty : s1.tok.type = s1.tokenType := rfl
    unfold AttrSeq
    unfold AttrStep at hst
    rw [hty, hoff, hstop]
    split
    · rename_i ht
      rw [if_pos ht] at hst
      exact ⟨hst.1, hst.2.1, ih hst.2.2⟩
    · rename_i ht
      rw [if_neg ht] at hst
      split
      · rename_i ht2
        rw [if_pos ht2] at hst
        exact ⟨hst.1, hst.2.1, hst.2.2.1, ih hst.2.2.2⟩
      · rename_i ht2
        rw [if_neg ht2] at hst
        exact ih hst

end Html
