import Verif.Proof.ScanStep

/-! # Progress facts of one scan -/

namespace Html

/-- States in which a zero-length pseudo-close token can be produced. -/
def SS.inTag : SS → Bool
  | .WithinTag | .WithinEndTag | .AfterAttributeName | .BeforeAttributeValue => true
  | _ => false

/-- A scan that consumed input. -/
def Advanced (c : Cfg) (s s' : Sc) : Prop :=
  s'.tokenType ≠ .EOS ∧ s.pos < s'.pos ∧ s'.pos ≤ c.src.length

/-- A scan that produced a pseudo-close token. -/
def Pseudo (c : Cfg) (s s' : Sc) : Prop :=
  c.emitPseudo = true ∧ s'.pos = s.pos ∧ s'.state = .WithinContent ∧
  (rest c s).head? = some 60 ∧ s'.tokenError = some .closingBracketMissing ∧
  ((s'.tokenType = .StartTagClose ∧
      (s.state = .WithinTag ∨ s.state = .AfterAttributeName ∨ s.state = .BeforeAttributeValue)) ∨
   (s'.tokenType = .EndTagClose ∧ s.state = .WithinEndTag))

theorem StepContent.advanced {c : Cfg} {s s' : Sc} (h : StepContent c s s')
    (hp : s.pos < c.src.length) : s'.tokenOffset = s.pos ∧ Advanced c s s' := by
  have hl := rest_length c s
  cases h with
  | startComment h =>
    have := isPrefixOf_length h; simp at this
    simp [Advanced, fin, adv]; omega
  | startDoctype h =>
    have := isPrefixOf_length h; simp at this
    simp [Advanced, fin, adv]; omega
  | endTagOpen h =>
    have := isPrefixOf_length h; simp at this
    simp [Advanced, fin, adv]; omega
  | startTagOpen h =>
    simp [Advanced, fin, adv]; omega
  | content h h0 =>
    have := untilByte_le 60 (rest c s)
    simp [Advanced, fin, adv]; omega

theorem TagPre.pos_eq {c : Cfg} {s s1 : Sc} (h : TagPre c s s1) : s1.pos = s.pos := by
  cases h <;> rfl

theorem attrNameLen_le (s : Str) : attrNameLen s ≤ s.length := firstRunLen_le _ _ _
theorem elementNameLen_le (u : Uni) (s : Str) : elementNameLen u s ≤ s.length := firstRunLen_le _ _ _
theorem unquotedLen_le (s : Str) : unquotedLen s ≤ s.length := firstRunLen_le _ _ _

theorem unquotedFullLen_le (r : Str) : unquotedFullLen r ≤ r.length := by
  have := unquotedLen_le r
  unfold unquotedFullLen
  simp only [List.head?_drop]
  split
  · rename_i h
    rcases h with h | h <;> (have := (List.getElem?_eq_some_iff.1 h).1; omega)
  · omega

theorem unquotedFullLen_ge (r : Str) : unquotedLen r ≤ unquotedFullLen r := by
  unfold unquotedFullLen; simp only; split <;> omega

theorem quotedLen_le {q : Nat} {r : Str} (h : r ≠ []) : 0 < quotedLen q r ∧ quotedLen q r ≤ r.length := by
  have := untilByte_le q (r.drop 1)
  have h1 : 0 < r.length := List.length_pos_iff.2 h
  simp only [List.length_drop] at this
  unfold quotedLen; simp only; split <;> omega

theorem StepTag.facts {c : Cfg} {s s' : Sc} (h : StepTag c s s')
    (hp : s.pos < c.src.length) : s'.tokenOffset = s.pos ∧ (Advanced c s s' ∨
      (c.emitPseudo = true ∧ s'.pos = s.pos ∧ s'.state = .WithinContent ∧
       (rest c s).head? = some 60 ∧ s'.tokenError = some .closingBracketMissing ∧
       s'.tokenType = .StartTagClose)) := by
  have hl := rest_length c s
  cases h with
  | ws h =>
    have := wsLen_le (rest c s)
    refine ⟨rfl, .inl ?_⟩; simp [Advanced, fin, adv]; omega
  | attrName _ _ _ h =>
    have := attrNameLen_le (rest c s)
    refine ⟨rfl, .inl ?_⟩; simp [Advanced, fin, adv]; omega
  | selfClose s1 hp1 h =>
    have := isPrefixOf_length h; simp at this
    have := hp1.pos_eq
    refine ⟨rfl, .inl ?_⟩; simp [Advanced, fin, adv]; omega
  | close s1 hp1 h =>
    have := hp1.pos_eq
    refine ⟨rfl, .inl ?_⟩; simp [Advanced, fin, adv]; omega
  | pseudo s1 hp1 he h =>
    exact ⟨rfl, .inr ⟨he, hp1.pos_eq, rfl, h, rfl, rfl⟩⟩
  | unknown s1 hp1 =>
    have := hp1.pos_eq
    refine ⟨rfl, .inl ?_⟩; simp [Advanced, fin, adv]; omega

theorem Step.facts {c : Cfg} {s s' : Sc} (h : Step c s s') : s'.tokenOffset = s.pos ∧
    ((c.src.length ≤ s.pos ∧ s' = fin s s.pos .EOS none) ∨
     (s.pos < c.src.length ∧ (Advanced c s s' ∨ Pseudo c s s'))) := by
  have hl := rest_length c s
  have hw := wsLen_le (rest c s)
  have hn := elementNameLen_le c.uni (rest c s)
  have hu := untilByte_le 62 (rest c s)
  cases h with
  | eos h => exact ⟨rfl, .inl ⟨h, rfl⟩⟩
  | content _ h hs hx =>
    have := hx.advanced h
    exact ⟨this.1, .inr ⟨h, .inl this.2⟩⟩
  | commentEnd h hs hx =>
    have := isPrefixOf_length hx; simp at this
    refine ⟨rfl, .inr ⟨h, .inl ?_⟩⟩; simp [Advanced, fin, adv]; omega
  | comment h hs hx h0 =>
    have := untilLit_le b!"-->" (rest c s)
    refine ⟨rfl, .inr ⟨h, .inl ?_⟩⟩; simp [Advanced, fin, adv]; omega
  | doctypeEnd h hs hx =>
    refine ⟨rfl, .inr ⟨h, .inl ?_⟩⟩; simp [Advanced, fin, adv]; omega
  | doctype h hs hx h0 =>
    refine ⟨rfl, .inr ⟨h, .inl ?_⟩⟩; simp [Advanced, fin, adv]; omega
  | endTagName h hs hb h0 =>
    refine ⟨rfl, .inr ⟨h, .inl ?_⟩⟩; simp [Advanced, fin, adv]; omega
  | endTagWs h hs hb hn h0 =>
    refine ⟨rfl, .inr ⟨h, .inl ?_⟩⟩; simp [Advanced, fin, adv]; omega
  | endTagNoName h hs hb hn hw h0 =>
    refine ⟨rfl, .inr ⟨h, .inl ?_⟩⟩; simp [Advanced, fin, adv]; omega
  | endTagImmediate h hs hb hn hw h0 =>
    refine ⟨rfl, .inr ⟨h, .inl ?_⟩⟩; simp [Advanced, fin, adv]; omega
  | endTag _ h hs hx =>
    cases hx with
    | ws h0 => refine ⟨rfl, .inr ⟨h, .inl ?_⟩⟩; simp [Advanced, fin, adv]; omega
    | close h0 => refine ⟨rfl, .inr ⟨h, .inl ?_⟩⟩; simp [Advanced, fin, adv]; omega
    | pseudo he h0 =>
      exact ⟨rfl, .inr ⟨h, .inr ⟨he, rfl, rfl, h0, rfl, .inr ⟨rfl, hs⟩⟩⟩⟩
    | unknown => refine ⟨rfl, .inr ⟨h, .inl ?_⟩⟩; simp [Advanced, fin, adv]; omega
  | startTagName h hs hb h0 =>
    refine ⟨rfl, .inr ⟨h, .inl ?_⟩⟩; simp [Advanced, fin, adv]; omega
  | startTagWs h hs hb hn h0 =>
    refine ⟨rfl, .inr ⟨h, .inl ?_⟩⟩; simp [Advanced, fin, adv]; omega
  | startTagNoName h hs hb hn hw h0 =>
    refine ⟨rfl, .inr ⟨h, .inl ?_⟩⟩; simp [Advanced, fin, adv]; omega
  | startTagImmediate h hs hb hn hw h0 =>
    refine ⟨rfl, .inr ⟨h, .inl ?_⟩⟩; simp [Advanced, fin, adv]; omega
  | tag _ h hs hx =>
    obtain ⟨h1, h2 | h2⟩ := hx.facts h
    · exact ⟨h1, .inr ⟨h, .inl h2⟩⟩
    · obtain ⟨a, b, d, e, f, g⟩ := h2
      exact ⟨h1, .inr ⟨h, .inr ⟨a, b, d, e, f, .inl ⟨g, .inl hs⟩⟩⟩⟩
  | afterNameWs h hs h0 =>
    refine ⟨rfl, .inr ⟨h, .inl ?_⟩⟩; simp [Advanced, fin, adv]; omega
  | assign h hs hw h0 =>
    refine ⟨rfl, .inr ⟨h, .inl ?_⟩⟩; simp [Advanced, fin, adv]; omega
  | afterNameTag _ h hs hw h0 hx =>
    obtain ⟨h1, h2 | h2⟩ := hx.facts h
    · exact ⟨h1, .inr ⟨h, .inl h2⟩⟩
    · obtain ⟨a, b, d, e, f, g⟩ := h2
      exact ⟨h1, .inr ⟨h, .inr ⟨a, b, d, e, f, .inl ⟨g, .inr (.inl hs)⟩⟩⟩⟩
  | valueWs h hs h0 =>
    refine ⟨rfl, .inr ⟨h, .inl ?_⟩⟩; simp [Advanced, fin, adv]; omega
  | valueUnquoted h hs hw hb h0 =>
    have h1 := unquotedFullLen_le (rest c s)
    have h2 := unquotedFullLen_ge (rest c s)
    refine ⟨rfl, .inr ⟨h, .inl ?_⟩⟩; simp [Advanced, fin, adv]; omega
  | valueQuoted h hs hw hb h0 q hq h1 =>
    have := quotedLen_le (q := q) (rest_ne_nil h)
    refine ⟨rfl, .inr ⟨h, .inl ?_⟩⟩; simp [Advanced, fin, adv]; omega
  | valueTag _ h hs hw hb h0 h1 hx =>
    obtain ⟨h1, h2 | h2⟩ := hx.facts h
    · exact ⟨h1, .inr ⟨h, .inl h2⟩⟩
    · obtain ⟨a, b, d, e, f, g⟩ := h2
      exact ⟨h1, .inr ⟨h, .inr ⟨a, b, d, e, f, .inl ⟨g, .inr (.inr hs)⟩⟩⟩⟩
  | script p st h hs hp hl hst =>
    refine ⟨rfl, .inr ⟨h, .inl ?_⟩⟩; simp [Advanced, fin]; omega
  | scriptContent _ h hs hl hx =>
    have := hx.advanced h
    exact ⟨this.1, .inr ⟨h, .inl this.2⟩⟩
  | style h hs hb h0 =>
    have := untilLit_le b!"</style" (rest c s)
    refine ⟨rfl, .inr ⟨h, .inl ?_⟩⟩; simp [Advanced, fin, adv]; omega
  | styleContent _ h hs hb h0 hx =>
    have := hx.advanced h
    exact ⟨this.1, .inr ⟨h, .inl this.2⟩⟩

theorem Step.not_notAdvanced {c : Cfg} {s s' : Sc} (h : Step c s s') :
    notAdvanced c s.pos s' = false := by
  obtain ⟨_, h | ⟨_, h | h⟩⟩ := h.facts
  · rw [h.2]; simp [notAdvanced, fin]
  · have := h.2.1; have : s.pos ≠ s'.pos := by omega
    simp [notAdvanced, this]
  · obtain ⟨a, _, _, _, _, b⟩ := h
    rcases b with b | b <;> simp [notAdvanced, a, b.1]

/-- `scan` is `internal_scan`: the recovery branch is never taken. -/
theorem scan_eq_internalScan (c : Cfg) (s : Sc) : scan c s = internalScan c s := by
  unfold scan
  cases h : internalScan c s with
  | error e => rfl
  | ok s' =>
    have := (internalScan_step h).not_notAdvanced
    simp [bind, Except.bind, this, pure, Except.pure]

theorem scan_step {c : Cfg} {s s' : Sc} (h : scan c s = .ok s') : Step c s s' :=
  internalScan_step (by rw [← scan_eq_internalScan]; exact h)

end Html
