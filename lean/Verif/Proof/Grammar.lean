import Verif.Proof.Tile

/-! # The token grammar -/

namespace Html
open Spec

theorem lastNonWs_ws (pre : List TT) : lastNonWs (pre ++ [.Whitespace]) = lastNonWs pre := by
  simp [lastNonWs]

theorem lastNonWs_snoc {pre : List TT} {t : TT} (h : t ≠ .Whitespace) :
    lastNonWs (pre ++ [t]) = some t := by
  simp [lastNonWs, h]

theorem lastBracket_not {pre : List TT} {t : TT} (h : isBracket t = false) :
    lastBracket (pre ++ [t]) = lastBracket pre := by
  simp [lastBracket, h]

theorem lastBracket_snoc {pre : List TT} {t : TT} (h : isBracket t = true) :
    lastBracket (pre ++ [t]) = some t := by
  simp [lastBracket, h]

theorem lastBracket_append (pre : List TT) (t : TT) :
    lastBracket (pre ++ [t]) = if isBracket t then some t else lastBracket pre := by
  cases h : isBracket t <;> simp [lastBracket, h]

theorem lastNonWs_append (pre : List TT) (t : TT) :
    lastNonWs (pre ++ [t]) = if t = .Whitespace then lastNonWs pre else some t := by
  by_cases h : t = .Whitespace <;> simp [lastNonWs, h]

/-- What each scanner state says about the tokens seen so far. -/
def GInv (c : Cfg) (pre : List TT) (s : Sc) : Prop :=
  match s.state with
  | .WithinContent => lastBracket pre ≠ some .StartTagOpen
  | .AfterOpeningStartTag =>
    lastNonWs pre = some .StartTagOpen ∧ lastBracket pre = some .StartTagOpen
  | .AfterOpeningEndTag => lastNonWs pre = some .EndTagOpen ∧ lastBracket pre = some .EndTagOpen
  | .WithinTag => lastBracket pre = some .StartTagOpen
  | .AfterAttributeName =>
    lastNonWs pre = some .AttributeName ∧ lastBracket pre = some .StartTagOpen
  | .BeforeAttributeValue =>
    pre.getLast? = some .DelimiterAssign ∧ lastBracket pre = some .StartTagOpen
  | .WithinEndTag => lastBracket pre = some .EndTagOpen
  | .WithinComment => lastBracket pre ≠ some .StartTagOpen ∧
    (pre.getLast? = some .StartCommentTag ∨ (pre.getLast? = some .Comment ∧
      (c.src.length ≤ s.pos ∨ (b!"-->").isPrefixOf (rest c s) = true)))
  | .WithinDoctype => lastBracket pre ≠ some .StartTagOpen ∧
    (pre.getLast? = some .StartDoctypeTag ∨ (pre.getLast? = some .Doctype ∧
      (c.src.length ≤ s.pos ∨ (rest c s).head? = some 62)))
  | .WithinScriptContent => lastBracket pre ≠ some .StartTagOpen ∧
      (c.src.length ≤ s.pos ∨ pre.getLast? = some .StartTagClose)
  | .WithinStyleContent => lastBracket pre ≠ some .StartTagOpen ∧ pre.getLast? = some .StartTagClose

macro "gram" : tactic => `(tactic| (
  simp_all [GInv, MayFollow, fin, adv, lastNonWs_append, lastBracket_append, isBracket]))

theorem StepContent.grammar {c : Cfg} {s s' : Sc} {pre : List TT} (h : StepContent c s s')
    (hs : s.state = .WithinContent) (hg : lastBracket pre ≠ some .StartTagOpen) :
    MayFollow pre s'.tokenType ∧ GInv c (pre ++ [s'.tokenType]) s' := by
  cases h <;> gram

theorem StepTag.grammar {c : Cfg} {s s' : Sc} {pre : List TT} (h : StepTag c s s')
    (hs : s.state = .WithinTag) (hg : lastBracket pre = some .StartTagOpen) :
    MayFollow pre s'.tokenType ∧ GInv c (pre ++ [s'.tokenType]) s' := by
  cases h with
  | ws h => gram
  | attrName h => gram
  | selfClose s1 hp h => cases hp <;> gram
  | close s1 hp h =>
    have hx : afterStartTag s = .WithinContent ∨ afterStartTag s = .WithinScriptContent ∨
        afterStartTag s = .WithinStyleContent := by
      unfold afterStartTag; repeat' split
      all_goals simp
    constructor
    · exact hg
    · rcases hx with hx | hx | hx <;> gram
  | pseudo s1 hp he h => cases hp <;> gram
  | unknown s1 hp => cases hp <;> gram

theorem StepEndTag.grammar {c : Cfg} {s s' : Sc} {pre : List TT} (h : StepEndTag c s s')
    (hs : s.state = .WithinEndTag) (hg : lastBracket pre = some .EndTagOpen) :
    MayFollow pre s'.tokenType ∧ GInv c (pre ++ [s'.tokenType]) s' := by
  cases h <;> gram

theorem Step.grammar {c : Cfg} {s s' : Sc} {pre : List TT} (h : Step c s s')
    (hne : s'.tokenType ≠ .EOS) (hg : GInv c pre s) :
    MayFollow pre s'.tokenType ∧ GInv c (pre ++ [s'.tokenType]) s' := by
  have hlen := rest_length c s
  cases h with
  | eos h => exact absurd rfl hne
  | content _ h hs hx => exact hx.grammar hs (by gram)
  | commentEnd h hs hx => gram
  | comment h hs hx h0 =>
    simp only [GInv, hs] at hg
    obtain ⟨hg0, hg | ⟨_, hg | hg⟩⟩ := hg
    · refine ⟨hg, ?_⟩
      simp only [GInv, fin, adv, hs]
      refine ⟨by rw [lastBracket_not rfl]; exact hg0, .inr ⟨by simp, ?_⟩⟩
      have hle := untilLit_le b!"-->" (rest c s)
      by_cases hlt : untilLit b!"-->" (rest c s) < (rest c s).length
      · right
        have := untilLit_prefix hlt
        simpa [rest, List.drop_drop] using this
      · left; omega
    · omega
    · rw [hg] at hx; cases hx
  | doctypeEnd h hs hx => gram
  | doctype h hs hx h0 =>
    simp only [GInv, hs] at hg
    obtain ⟨hg0, hg | ⟨_, hg | hg⟩⟩ := hg
    · refine ⟨hg, ?_⟩
      simp only [GInv, fin, adv, hs]
      refine ⟨by rw [lastBracket_not rfl]; exact hg0, .inr ⟨by simp, ?_⟩⟩
      have hle := untilByte_le 62 (rest c s)
      by_cases hlt : untilByte 62 (rest c s) < (rest c s).length
      · right
        have := untilByte_get hlt
        simpa [rest, List.drop_drop] using this
      · left; omega
    · omega
    · exact absurd hg hx
  | endTagName h hs hb h0 => gram
  | endTagWs h hs hb hn h0 => gram
  | endTagNoName h hs hb hn hw h0 => gram
  | endTagImmediate h hs hb hn hw h0 => gram
  | endTag _ h hs hx => exact hx.grammar hs (by gram)
  | startTagName h hs hb h0 => gram
  | startTagWs h hs hb hn h0 => gram
  | startTagNoName h hs hb hn hw h0 => gram
  | startTagImmediate h hs hb hn hw h0 => gram
  | tag _ h hs hx => exact hx.grammar hs (by gram)
  | afterNameWs h hs h0 => gram
  | assign h hs hw h0 => gram
  | afterNameTag _ h hs hw h0 hx => exact hx.grammar rfl (by gram)
  | valueWs h hs h0 => gram
  | valueUnquoted h hs hw hb h0 => gram
  | valueQuoted h hs hw hb h0 q hq h1 => gram
  | valueTag _ h hs hw hb h0 h1 hx => exact hx.grammar rfl (by gram)
  | script p st h hs hp hl hst =>
    simp only [GInv, hs] at hg
    obtain ⟨hg0, hg | hg⟩ := hg
    · omega
    · refine ⟨hg, ?_⟩
      rcases hst with ⟨rfl, _⟩ | ⟨rfl, rfl, _⟩ <;> gram
  | scriptContent _ h hs hl hx => exact hx.grammar rfl (by gram)
  | style h hs hb h0 => gram
  | styleContent _ h hs hb h0 hx => exact hx.grammar rfl (by gram)

theorem Run.grammar {c : Cfg} {s s2 : Sc} {ts : List Tok} (h : Run c s ts s2) {hist : List TT}
    (hg : GInv c hist s) {pre post : List Tok} {t : Tok} (ht : ts = pre ++ t :: post) :
    MayFollow (hist ++ pre.map Tok.type) t.type := by
  induction h generalizing hist pre with
  | nil s => simp at ht
  | @cons s s1 s2 ts h hne hr ih =>
    have := (scan_step h).grammar hne hg
    cases pre with
    | nil =>
      simp at ht
      rw [← ht.1]
      simpa [Sc.tok] using this.1
    | cons p pre =>
      simp at ht
      have := ih this.2 ht.2
      rw [← ht.1]
      simpa [Sc.tok] using this

theorem Run.ginv {c : Cfg} {s s2 : Sc} {ts : List Tok} (h : Run c s ts s2) {hist : List TT}
    (hg : GInv c hist s) : GInv c (hist ++ ts.map Tok.type) s2 := by
  induction h generalizing hist with
  | nil s => simpa using hg
  | @cons s s1 s2 ts h hne hr ih =>
    have := ih ((scan_step h).grammar hne hg).2
    simpa [Sc.tok] using this

end Html
