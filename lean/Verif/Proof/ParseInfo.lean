import Verif.Proof.ParseTotal

/-! # The start tags of the tree are those of the token stream -/

namespace Html
open Spec

variable {c : Cfg} {void : List Str}

theorem infos_append (a b : List Node) : infos (a ++ b) = infos a ++ infos b := by
  induction a with
  | nil => simp [infos]
  | cons n a ih => simp [infos, ih]

def Node.info (n : Node) : TagInfo := ⟨n.start, n.tag, n.attributes⟩

theorem infoNode_eq (n : Node) : infoNode n = n.info :: infos n.children := by
  cases n; simp [infoNode, Node.info]

def zipInfo : List Node → List TagInfo
  | [] => []
  | [r] => infos r.children
  | n :: ps => zipInfo ps ++ n.info :: infos n.children

theorem zipInfo_add {q n : Node} {qs : List Node} :
    zipInfo (q.addChild n :: qs) = zipInfo (n :: q :: qs) := by
  have hp : infos [n] = n.info :: infos n.children := by simp [infos, infoNode_eq]
  cases qs with
  | nil => simp [zipInfo, Node.addChild, infos_append, hp]
  | cons a l =>
    have : ({ q with children := q.children ++ [n] } : Node).info = q.info := rfl
    simp [zipInfo, Node.addChild, infos_append, hp, this]

theorem zipInfo_congr {n n' : Node} {ps : List Node} (h1 : n'.info = n.info)
    (h2 : n'.children = n.children) : zipInfo (n' :: ps) = zipInfo (n :: ps) := by
  cases ps <;> simp [zipInfo, h1, h2]

theorem modifyLast_append {α : Type} (f : α → α) (l : List α) (a : α) :
    modifyLast f (l ++ [a]) = l ++ [f a] := by
  induction l with
  | nil => rfl
  | cons b l ih =>
    cases l with
    | nil => rfl
    | cons d l => simp only [List.cons_append, modifyLast] at *; rw [ih]

theorem zipInfo_modify {n n' : Node} {ps : List Node} {f : TagInfo → TagInfo} (hps : ps ≠ [])
    (hk : n.children = []) (h1 : n'.info = f n.info) (h2 : n'.children = []) :
    zipInfo (n' :: ps) = modifyLast f (zipInfo (n :: ps)) := by
  cases ps with
  | nil => exact absurd rfl hps
  | cons q qs => simp [zipInfo, hk, h2, infos, h1, modifyLast_append]

theorem pop_info {p p' : PState} (h : p.pop = .ok p') :
    zipInfo (p'.cur :: p'.parents) = zipInfo (p.cur :: p.parents) ∧ p'.pending = p.pending := by
  unfold PState.pop at h
  split at h
  · cases h
  · rename_i q qs hq
    cases h
    rw [hq]; exact ⟨zipInfo_add, rfl⟩

theorem popUnclosed_info {k : Nat} {p p' : PState} (h : popUnclosed k p = .ok p') :
    zipInfo (p'.cur :: p'.parents) = zipInfo (p.cur :: p.parents) ∧ p'.pending = p.pending := by
  induction k generalizing p with
  | zero => cases h; exact ⟨rfl, rfl⟩
  | succ k ih =>
    unfold popUnclosed at h
    obtain ⟨e, _, h⟩ := bind_ok h
    obtain ⟨p1, h1, h⟩ := bind_ok h
    have h2 := ih h
    have h3 := pop_info h1
    exact ⟨by rw [h2.1, h3.1]; exact zipInfo_congr rfl rfl, by rw [h2.2, h3.2]⟩

theorem text_eq {s : Sc} {t : Str} (h : tokenText c s = .ok t) : t = text c.src s.tok :=
  (sliceStr_ok h).2.2.2.2

/-- What relates parser state and the reading of the tokens so far. -/
structure InfoInv (p : PState) (s : Sc) (r : List TagInfo × Option Str) : Prop where
  zip : zipInfo (p.cur :: p.parents) = r.1
  pend : s.state = .AfterAttributeName ∨ s.state = .BeforeAttributeValue → p.pending = r.2

theorem pstack_ne {p : PState} {n : Nat} (h : StackOK c void NoLeft n p.parents) : p.parents ≠ [] := by
  intro h0; rw [h0] at h; exact h

/-- States in which a start tag is being read. -/
def SS.inStart : SS → Bool
  | .AfterOpeningStartTag | .WithinTag | .AfterAttributeName | .BeforeAttributeValue => true
  | _ => false

theorem PInv.inStart {p : PState} {s : Sc} (h : PInv c void p s) (hs : s.state.inStart = true) :
    p.cur.children = [] ∧ p.parents ≠ [] := by
  unfold PInv at h
  revert h hs
  cases s.state <;> intro h hs <;> first
    | (cases hs; done)
    | exact ⟨h.core.kids, pstack_ne h.stack⟩
    | exact ⟨h.tag.core.kids, pstack_ne h.tag.stack⟩

/-- Where the tokens that describe start tags come from. -/
structure InfoFacts (s s' : Sc) : Prop where
  f1 : s'.tokenType = .StartTag ∨ s'.tokenType = .AttributeName → s.state.inStart = true
  f2 : s'.tokenType = .DelimiterAssign → s.state = .AfterAttributeName
  f3 : s'.tokenType = .AttributeValue → s.state = .BeforeAttributeValue ∧ s'.state = .WithinTag
  f4 : s'.state = .AfterAttributeName ∨ s'.state = .BeforeAttributeValue →
    s'.tokenType = .AttributeName ∨
    ((s'.tokenType = .Whitespace ∨ s'.tokenType = .DelimiterAssign) ∧ s.state = .AfterAttributeName)

theorem StepContent.infoFacts {s s' a : Sc} (h : StepContent c a s') (ha : a.state = .WithinContent) :
    InfoFacts s s' := by
  cases h <;> constructor <;> simp [fin, adv, ha]

theorem afterStartTag_ne (s : Sc) : afterStartTag s ≠ .AfterAttributeName ∧
    afterStartTag s ≠ .BeforeAttributeValue := by
  rcases afterStartTag_content s with h | h | h <;> rw [h] <;> decide

theorem StepTag.infoFacts {s s' a : Sc} (h : StepTag c a s') (ha : a.state = .WithinTag)
    (hs : s.state.inStart = true) : InfoFacts s s' := by
  cases h with
  | close s1 hp1 h =>
    have := afterStartTag_ne a
    constructor <;> simp [fin, adv, this]
  | unknown s1 hp1 =>
    have es : s1.state = .WithinTag := by cases hp1 <;> exact ha
    constructor <;> simp [fin, adv, es]
  | _ => constructor <;> simp [fin, adv, ha, hs]

theorem Step.infoFacts {s s' : Sc} (h : Step c s s') (hne : s'.tokenType ≠ .EOS) : InfoFacts s s' := by
  cases h with
  | eos h => exact absurd rfl hne
  | content _ h hs hx => exact hx.infoFacts hs
  | endTag _ h hs hx => cases hx <;> constructor <;> simp [fin, adv, hs]
  | tag _ h hs hx => exact hx.infoFacts hs (by rw [hs]; rfl)
  | afterNameTag _ h hs hw h0 hx => exact hx.infoFacts rfl (by rw [hs]; rfl)
  | valueTag _ h hs hw hb h0 h1 hx => exact hx.infoFacts rfl (by rw [hs]; rfl)
  | script q st h hs hp hl hst =>
    rcases hst with ⟨e, _⟩ | ⟨e, _⟩ <;> constructor <;> simp [fin, e]
  | scriptContent _ h hs hl hx => exact hx.infoFacts rfl
  | styleContent _ h hs hb h0 hx => exact hx.infoFacts rfl
  | _ => rename_i hs _; constructor <;> simp_all [fin, adv, SS.inStart]

theorem InfoInv.step {p p' : PState} {s s' : Sc} {r : List TagInfo × Option Str}
    (hi : InfoInv p s r) (hp : PInv c void p s) (hst : Step c s s') (hne : s'.tokenType ≠ .EOS)
    (h : parseStep c void p s' = .ok p') : InfoInv p' s' (readTag c.src r s'.tok) := by
  have hf := hst.infoFacts hne
  have hty : s'.tok.type = s'.tokenType := rfl
  have hoff : s'.tok.offset = s'.tokenOffset := rfl
  -- steps that leave the reading alone
  have same : s'.tokenType ≠ .AttributeName → s'.tokenType ≠ .DelimiterAssign →
      zipInfo (p'.cur :: p'.parents) = zipInfo (p.cur :: p.parents) → p'.pending = p.pending →
      InfoInv p' s' r := by
    intro h1 h2 h3 h4
    refine ⟨by rw [h3]; exact hi.zip, fun hs => ?_⟩
    rcases hf.f4 hs with h5 | ⟨h5 | h5, h6⟩
    · exact absurd h5 h1
    · rw [h4]; exact hi.pend (.inl h6)
    · exact absurd h5 h2
  unfold parseStep at h
  unfold readTag
  rw [hty]
  split at h
  · rename_i ht
    cases h
    simp only [ht]
    refine ⟨?_, fun hs => ?_⟩
    · simp [zipInfo, Node.new, Node.info, infos, hi.zip, hoff]
    · rcases hf.f4 hs with h5 | ⟨h5 | h5, h6⟩ <;> rw [ht] at h5 <;> cases h5
  · rename_i ht
    obtain ⟨t, h1, h⟩ := bind_ok h
    cases h
    simp only [ht]
    have hk := hp.inStart (hf.f1 (.inl ht))
    refine ⟨?_, fun hs => ?_⟩
    · rw [← hi.zip]
      refine zipInfo_modify hk.2 hk.1 ?_ hk.1
      rw [text_eq h1]; rfl
    · rcases hf.f4 hs with h5 | ⟨h5 | h5, h6⟩ <;> rw [ht] at h5 <;> cases h5
  · rename_i ht
    simp only [ht]
    have key : zipInfo (p'.cur :: p'.parents) = zipInfo (p.cur :: p.parents) ∧ p'.pending = p.pending := by
      split at h
      · cases h; exact ⟨rfl, rfl⟩
      · simp only at h
        split at h
        · split at h
          · have := pop_info h; exact ⟨by rw [this.1]; exact zipInfo_congr rfl rfl, this.2⟩
          · cases h; exact ⟨zipInfo_congr rfl rfl, rfl⟩
        · have := pop_info h; exact ⟨by rw [this.1]; exact zipInfo_congr rfl rfl, this.2⟩
    exact same (by rw [ht]; decide) (by rw [ht]; decide) key.1 key.2
  · rename_i ht
    simp only [ht]
    have key : zipInfo (p'.cur :: p'.parents) = zipInfo (p.cur :: p.parents) ∧ p'.pending = p.pending := by
      split at h
      · cases h; exact ⟨rfl, rfl⟩
      · have := pop_info h; exact ⟨by rw [this.1]; exact zipInfo_congr rfl rfl, this.2⟩
    exact same (by rw [ht]; decide) (by rw [ht]; decide) key.1 key.2
  · rename_i ht
    cases h
    simp only [ht]
    exact same (by rw [ht]; decide) (by rw [ht]; decide) rfl rfl
  · rename_i ht
    obtain ⟨t, _, h⟩ := bind_ok h
    cases h
    simp only [ht]
    exact same (by rw [ht]; decide) (by rw [ht]; decide) rfl rfl
  · rename_i ht
    simp only [ht]
    have key : zipInfo (p'.cur :: p'.parents) = zipInfo (p.cur :: p.parents) ∧ p'.pending = p.pending := by
      simp only at h
      split at h
      · obtain ⟨p1, h1, h⟩ := bind_ok h
        have h2 := pop_info h
        have h3 := popUnclosed_info h1
        exact ⟨by rw [h2.1, ← h3.1]; exact zipInfo_congr rfl rfl, by rw [h2.2, ← h3.2]⟩
      · cases h; exact ⟨rfl, rfl⟩
    exact same (by rw [ht]; decide) (by rw [ht]; decide) key.1 key.2
  · rename_i ht
    obtain ⟨t, h1, h⟩ := bind_ok h
    cases h
    simp only [ht]
    have hk := hp.inStart (hf.f1 (.inr ht))
    refine ⟨?_, fun _ => by rw [text_eq h1]⟩
    rw [← hi.zip]
    refine zipInfo_modify hk.2 hk.1 ?_ hk.1
    rw [text_eq h1]; rfl
  · rename_i ht
    simp only [ht]
    have hs := hf.f2 ht
    have hk := hp.inStart (by rw [hs]; rfl)
    have hpd := hi.pend (.inl hs)
    split at h
    · rename_i a ha
      obtain ⟨m, hm, h⟩ := bind_ok h
      cases h
      rw [attrSetValue_eq] at hm
      refine ⟨?_, fun _ => hpd⟩
      rw [← hi.zip]
      refine zipInfo_modify hk.2 hk.1 ?_ hk.1
      rw [← hpd, ha]
      cases hg : attrGet p.cur.attributes a with
      | none => rw [hg] at hm; cases hm
      | some x =>
        rw [hg] at hm
        cases hm
        simp [setValue, Node.info, hg]
    · rename_i ha
      unfold PInv at hp
      simp only [hs] at hp
      obtain ⟨_, _, _, h9, _⟩ := hp.pend
      rw [ha] at h9; cases h9
  · rename_i ht
    simp only [ht]
    have hs := hf.f3 ht
    have hk := hp.inStart (by rw [hs.1]; rfl)
    have hpd := hi.pend (.inr hs.1)
    obtain ⟨t, h1, h⟩ := bind_ok h
    split at h
    · rename_i a ha
      obtain ⟨m, hm, h⟩ := bind_ok h
      cases h
      rw [attrSetValue_eq] at hm
      refine ⟨?_, fun hx => ?_⟩
      · rw [← hi.zip]
        refine zipInfo_modify hk.2 hk.1 ?_ hk.1
        rw [← hpd, ha, ← text_eq h1]
        cases hg : attrGet p.cur.attributes a with
        | none => rw [hg] at hm; cases hm
        | some x =>
          rw [hg] at hm
          cases hm
          simp [setValue, Node.info, hg]
      · rw [hs.2] at hx; rcases hx with hx | hx <;> cases hx
    · rename_i ha
      unfold PInv at hp
      simp only [hs.1] at hp
      obtain ⟨_, _, _, h9, _⟩ := hp.pend
      rw [ha] at h9; cases h9
  · rename_i h1 h2 h3 h4 h5 h6 h7 h8 h9 h10
    cases h
    split
    · exact absurd (by assumption) h1
    · exact absurd (by assumption) h2
    · exact absurd (by assumption) h8
    · exact absurd (by assumption) h9
    · exact absurd (by assumption) h10
    · exact same h8 h9 rfl rfl

theorem parseLoop_info {f : Nat} {p p' : PState} {s : Sc} {r : List TagInfo × Option Str} {ts : List Tok}
    (hi : InfoInv p s r) (hp : PInv c void p s) (h : parseLoop c void f p s = .ok p')
    (ht : tokensF c f s = .ok ts) :
    zipInfo (p'.cur :: p'.parents) = (ts.foldl (readTag c.src) r).1 := by
  induction f generalizing p s ts r with
  | zero => cases h
  | succ f ih =>
    unfold parseLoop at h
    unfold tokensF at ht
    obtain ⟨s1, h1, h⟩ := bind_ok h
    rw [h1] at ht
    simp only [bind, Except.bind] at ht
    have hst := scan_step h1
    split at h
    · rename_i he
      rw [if_pos he] at ht
      cases ht; cases h; exact hi.zip
    · rename_i hne
      rw [if_neg hne] at ht
      obtain ⟨p1, h2, h⟩ := bind_ok h
      obtain ⟨ts', h3, ht⟩ := bind_ok ht
      cases ht
      have hn := hp.step hst hne (fun hn => by
        obtain ⟨t, ht⟩ := parseStep_text h2 hn
        exact tokenText_eq ht hst.offset_eq)
      obtain ⟨p2, h4, h5⟩ := hn
      rw [h2] at h4
      cases h4
      rw [List.foldl_cons]; exact ih (hi.step hp hst hne h2) h5 h h3

theorem finishAll_info (len : Nat) (n : Node) (ps : List Node) :
    infos (finishAll len n ps).children = zipInfo (n :: ps) := by
  induction ps generalizing n with
  | nil => rfl
  | cons q qs ih =>
    rw [finishAll, ih, zipInfo_add]
    exact zipInfo_congr rfl rfl

end Html
