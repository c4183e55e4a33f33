import Verif.Proof.Hover
import Verif.Proof.Boundary

/-! # The steps of a hover -/

namespace Html
open Spec

variable {c : Cfg} {e : HoverEnv} {d : TextDoc}

/-! ### Providers and participants -/

theorem firstAnswer_eq (f : HoverParticipant → Option Hover) (l : List HoverParticipant) :
    firstAnswer f l = l.findSome? f := by
  induction l with
  | nil => rfl
  | cons p ps ih => simp only [firstAnswer, List.findSome?_cons, ih]; cases f p <;> rfl

theorem convert_doc {x : Option Description} {y : Option (List Reference)} {m : Markup}
    (h : docOf e x y = some m) : e.convert m = m := by
  unfold docOf generateDocumentation at h
  dsimp only at h
  split at h
  · cases h
    unfold HoverEnv.convert
    split
    · rfl
    · rename_i hs; simp at hs; simp [hs]
  · cases h

theorem convert_empty : e.convert ⟨e.supportsMarkdown, []⟩ = ⟨e.supportsMarkdown, []⟩ := by
  unfold HoverEnv.convert
  split
  · rfl
  · rename_i hs; simp at hs; simp [hs]

theorem sameTag_iff (a b : Str) : e.sameTag a b = decide (SameTag e a b) := by
  unfold HoverEnv.sameTag SameTag
  by_cases h : e.caseSensitive = true
  · simp only [h, if_true]
    by_cases h' : a = b <;> simp [h']
  · simp only [h, Bool.false_eq_true, if_false]
    by_cases h' : toLower e.uni a = toLower e.uni b <;> simp [h']

theorem tagHover1_eq (tag : Str) (r : Range) (ts : List TagData) : ∀ h : Option Hover,
    e.tagHover1 tag r ts h = (((ts.filter (fun t => SameTag e t.name tag)).getLast?).map fun t =>
      (⟨(docOf e t.description t.references).getD ⟨e.supportsMarkdown, []⟩, some r⟩ : Hover)).or h := by
  induction ts with
  | nil => intro h; rfl
  | cons t ts ih =>
    intro h
    rw [HoverEnv.tagHover1, ih, sameTag_iff]
    by_cases hs : SameTag e t.name tag
    · have hconv : e.convert ((docOf e t.description t.references).getD ⟨e.supportsMarkdown, []⟩) =
          (docOf e t.description t.references).getD ⟨e.supportsMarkdown, []⟩ := by
        cases hd : docOf e t.description t.references with
        | none => exact convert_empty
        | some m => exact convert_doc hd
      rw [List.filter_cons_of_pos (by simpa using hs)]
      simp only [hs, decide_true, if_true]
      rw [show generateDocumentation t.description t.references e.setting =
        docOf e t.description t.references from rfl, hconv]
      cases hl : (ts.filter (fun t => decide (SameTag e t.name tag))) with
      | nil => rfl
      | cons x l =>
        rw [show (t :: x :: l).getLast? = (x :: l).getLast? from List.getLast?_cons_cons]
        cases hx : (x :: l).getLast? with
        | none => simp at hx
        | some y => rfl
    · rw [List.filter_cons_of_neg (by simpa using hs)]
      simp [hs]

theorem tagHover_eq (tag : Str) (r : Range) : e.tagHover tag r e.applicable = tagAnswer e tag r := by
  unfold tagAnswer HoverEnv.applicable
  induction e.providers.filter (·.isApplicable e.languageId) with
  | nil => rfl
  | cons p ps ih =>
    rw [HoverEnv.tagHover, tagHover1_eq, ih, List.findSome?_cons]
    simp only [knownTag]
    cases (p.provideTags.filter (fun t => decide (SameTag e t.name tag))).getLast? <;> rfl

theorem attrHover1_eq (attr : Str) (r : Range) (as : List AttributeData) : ∀ h : Option Hover,
    e.attrHover1 attr r as h =
      match (as.filter (fun a => a.name = attr ∧ a.description ≠ none)).getLast? with
      | some a => (docOf e a.description a.references).map (⟨·, some r⟩)
      | none => h := by
  induction as with
  | nil => intro h; rfl
  | cons a as ih =>
    intro h
    rw [HoverEnv.attrHover1, ih]
    by_cases hs : a.name = attr ∧ a.description ≠ none
    · rw [List.filter_cons_of_pos (by simpa using hs)]
      rw [if_pos ⟨hs.1.symm, Option.isSome_iff_ne_none.2 hs.2⟩]
      rw [show generateDocumentation a.description a.references e.setting =
        docOf e a.description a.references from rfl]
      cases hl : (as.filter (fun a => decide (a.name = attr ∧ a.description ≠ none))) with
      | nil =>
        simp only [List.getLast?_singleton]
        cases hd : docOf e a.description a.references with
        | none => rfl
        | some m => simp only [Option.map_some]; rw [convert_doc hd]; rfl
      | cons x l =>
        rw [show (a :: x :: l).getLast? = (x :: l).getLast? from List.getLast?_cons_cons]
        cases hx : (x :: l).getLast? with
        | none => simp at hx
        | some y => rfl
    · rw [List.filter_cons_of_neg (by simpa using hs)]
      rw [if_neg (fun h => hs ⟨h.1.symm, Option.isSome_iff_ne_none.1 h.2⟩)]

theorem attrHover_eq (tag attr : Str) (r : Range) (o : Nat) :
    e.attrHover tag attr r o e.applicable = attrAnswer e tag attr o r := by
  unfold attrAnswer HoverEnv.applicable
  induction e.providers.filter (·.isApplicable e.languageId) with
  | nil => rfl
  | cons p ps ih =>
    rw [HoverEnv.attrHover, attrHover1_eq, ih, List.findSome?_cons]
    simp only [attrDoc]
    cases ((p.provideAttributes tag o).filter
      (fun a => decide (a.name = attr ∧ a.description ≠ none))).getLast? with
    | none => rfl
    | some a =>
      simp only [Option.bind_some]
      cases docOf e a.description a.references <;> rfl

theorem valueHover1_eq (value : Str) (r : Range) (vs : List ValueData) :
    e.valueHover1 value r vs =
      (((vs.filter (fun v => v.name = value ∧ v.description ≠ none)).findSome?
        fun v => docOf e v.description v.references).map (⟨·, some r⟩)) := by
  induction vs with
  | nil => rfl
  | cons v vs ih =>
    rw [HoverEnv.valueHover1, ih]
    by_cases hs : v.name = value ∧ v.description ≠ none
    · rw [List.filter_cons_of_pos (by simpa using hs)]
      rw [if_pos ⟨hs.1.symm, Option.isSome_iff_ne_none.2 hs.2⟩]
      rw [show generateDocumentation v.description v.references e.setting =
        docOf e v.description v.references from rfl, List.findSome?_cons]
      cases hd : docOf e v.description v.references with
      | none => rfl
      | some m => simp only [Option.map_some]; rw [convert_doc hd]
    · rw [List.filter_cons_of_neg (by simpa using hs)]
      rw [if_neg (fun h => hs ⟨h.1.symm, Option.isSome_iff_ne_none.1 h.2⟩)]

theorem attrValueHover_eq (tag attr value : Str) (r : Range) :
    e.attrValueHover tag attr value r = valueAnswer e tag attr value r := by
  have h : e.valueHover tag attr value r e.applicable =
      (((e.providers.filter (·.isApplicable e.languageId)).findSome? (valueDoc e tag attr value)).map
        (⟨·, some r⟩)) := by
    unfold HoverEnv.applicable
    induction e.providers.filter (·.isApplicable e.languageId) with
    | nil => rfl
    | cons p ps ih =>
      rw [HoverEnv.valueHover, valueHover1_eq, ih, List.findSome?_cons]
      simp only [valueDoc]
      cases List.findSome? (fun v : ValueData => docOf e v.description v.references)
        ((p.provideValues tag attr).filter (fun v => decide (v.name = value ∧ v.description ≠ none))) <;> rfl
  unfold HoverEnv.attrValueHover valueAnswer
  rw [firstAnswer_eq, h]
  cases List.findSome? (fun p : HoverParticipant => p.onAttributeValue tag attr value r) e.participants <;> rfl

/-! ### Entities -/

theorem isLetterOrDigit_iff {text : Str} {i : Nat} :
    isLetterOrDigit text i = true ↔ ∃ b, text[i]? = some b ∧ alnum b := by
  unfold isLetterOrDigit
  cases text[i]? with
  | none => simp
  | some b => simp [alnum, or_assoc]

theorem isLetterOrDigit_false {text : Str} {i : Nat} :
    isLetterOrDigit text i = false ↔ ∀ b, text[i]? = some b → ¬ alnum b := by
  rw [Bool.eq_false_iff, ne_eq, isLetterOrDigit_iff]
  constructor
  · intro h b hb ha; exact h ⟨b, hb, ha⟩
  · rintro h ⟨b, hb, ha⟩; exact h b hb ha

theorem lettersBefore_spec (text : Str) (o : Nat) :
    lettersBefore text o ≤ o ∧ (∀ i, o - lettersBefore text o ≤ i → i < o → isLetterOrDigit text i = true) ∧
    (lettersBefore text o < o → isLetterOrDigit text (o - lettersBefore text o - 1) = false) := by
  induction o with
  | zero => exact ⟨Nat.le_refl _, fun i _ h => by omega, fun h => by omega⟩
  | succ k ih =>
    unfold lettersBefore
    by_cases hk : isLetterOrDigit text k = true
    · rw [if_pos hk]
      obtain ⟨h1, h2, h3⟩ := ih
      refine ⟨by omega, fun i h4 h5 => ?_, fun h => ?_⟩
      · rcases Nat.lt_or_ge i k with h | h
        · exact h2 i (by omega) h
        · rw [show i = k by omega]; exact hk
      · rw [show k + 1 - (1 + lettersBefore text k) - 1 = k - lettersBefore text k - 1 by omega]
        exact h3 (by omega)
    · rw [if_neg hk]
      exact ⟨by omega, fun i h4 h5 => by omega, fun _ => by simpa using hk⟩

theorem lettersFrom_spec (text : Str) : ∀ (f k : Nat), text.length ≤ k + f →
    (∀ i, k ≤ i → i < k + lettersFrom text f k → isLetterOrDigit text i = true) ∧
    isLetterOrDigit text (k + lettersFrom text f k) = false
  | 0, k, h => by
    refine ⟨fun i _ h => by simp [lettersFrom] at h; omega, ?_⟩
    rw [isLetterOrDigit_false]
    intro b hb
    have := (List.getElem?_eq_some_iff.1 hb).1
    simp [lettersFrom] at this
    omega
  | f + 1, k, h => by
    unfold lettersFrom
    by_cases hk : isLetterOrDigit text k = true
    · rw [if_pos hk]
      obtain ⟨h1, h2⟩ := lettersFrom_spec text f (k + 1) (by omega)
      refine ⟨fun i h4 h5 => ?_, ?_⟩
      · rcases Nat.lt_or_ge k i with h | h
        · exact h1 i (by omega) (by omega)
        · rw [show i = k by omega]; exact hk
      · rw [show k + (1 + lettersFrom text f (k + 1)) = k + 1 + lettersFrom text f (k + 1) by omega]
        exact h2
    · rw [if_neg hk]
      exact ⟨fun i h4 h5 => by omega, by simpa using hk⟩

theorem Spec.Columns.run (hc : Columns d) {a : Nat} : ∀ {j : Nat},
    (∀ i, a ≤ i → i < a + j → isLetterOrDigit d.text i = true) →
    d.posAt (a + j) = ⟨(d.posAt a).line, (d.posAt a).character + j⟩
  | 0, _ => rfl
  | j + 1, h => by
    obtain ⟨b, hb, hal⟩ := isLetterOrDigit_iff.1 (h (a + j) (by omega) (by omega))
    unfold alnum at hal
    have h1 := hc (a + j) b hb (by omega) (by omega) (by omega)
    have h2 := hc.run (j := j) (fun i h3 h4 => h i h3 (by omega))
    rw [← Nat.add_assoc, h1, h2]
    simp only [Nat.add_assoc]

variable {p : Pos}

theorem lettersBefore_column (hc : Columns d) (hp : Exact d p) :
    lettersBefore d.text (d.offsetAt p) ≤ p.character ∧
    d.posAt (d.offsetAt p - lettersBefore d.text (d.offsetAt p)) =
      ⟨p.line, p.character - lettersBefore d.text (d.offsetAt p)⟩ := by
  obtain ⟨h1, h2, _⟩ := lettersBefore_spec d.text (d.offsetAt p)
  have := hc.run (a := d.offsetAt p - lettersBefore d.text (d.offsetAt p))
    (j := lettersBefore d.text (d.offsetAt p)) (fun i h3 h4 => h2 i h3 (by omega))
  rw [show d.offsetAt p - lettersBefore d.text (d.offsetAt p) + lettersBefore d.text (d.offsetAt p) =
    d.offsetAt p by omega] at this
  have hp' : d.posAt (d.offsetAt p) = p := hp
  rw [hp'] at this
  have e1 := congrArg Pos.line this
  have e2 := congrArg Pos.character this
  simp only at e1 e2
  refine ⟨by omega, ?_⟩
  have e3 : ∀ q : Pos, q.line = p.line → q.character = p.character - lettersBefore d.text (d.offsetAt p) →
      q = ⟨p.line, p.character - lettersBefore d.text (d.offsetAt p)⟩ := by
    rintro ⟨l, k⟩ h h'
    simp only at h h'
    rw [h, h']
  exact e3 _ e1.symm (by omega)

/-- The letters around the cursor are those of the character reference. -/
theorem entity_letters {text : Str} {o k n : Nat} (h : EntityAt text o k n) :
    lettersBefore text o = o - k ∧ lettersFrom text text.length k = n := by
  obtain ⟨h1, h2, h3, h4, h5, h6⟩ := h
  have hl : ∀ i, k ≤ i → i < k + n → isLetterOrDigit text i = true :=
    fun i a b => isLetterOrDigit_iff.2 (h5 i a b)
  have hr : isLetterOrDigit text (k + n) = false := isLetterOrDigit_false.2 h6
  have hz : isLetterOrDigit text (k - 1) = false := by
    rw [isLetterOrDigit_false]
    intro b hb
    rw [h2] at hb; cases hb
    decide
  obtain ⟨g1, g2, g3⟩ := lettersBefore_spec text o
  obtain ⟨f1, f2⟩ := lettersFrom_spec text text.length k (by omega)
  constructor
  · rcases Nat.lt_trichotomy (lettersBefore text o) (o - k) with h | h | h
    · have := hl (o - lettersBefore text o - 1) (by omega) (by omega)
      rw [g3 (by omega)] at this; cases this
    · exact h
    · have := g2 (k - 1) (by omega) (by omega)
      rw [hz] at this; cases this
  · rcases Nat.lt_trichotomy (lettersFrom text text.length k) n with h | h | h
    · have := hl (k + lettersFrom text text.length k) (by omega) (by omega)
      rw [f2] at this; cases this
    · exact h
    · have := f1 (k + n) (by omega) (by omega)
      rw [hr] at this; cases this

theorem getEntityRange_some {k n : Nat} (hc : Columns d) (hp : Exact d p)
    (h : EntityAt d.text (d.offsetAt p) k n) :
    getEntityRange d p (d.offsetAt p) = .ok (some ⟨d.posAt k,
      d.posAt (if d.text[k + n]? = some 59 then k + n + 1 else k + n)⟩) := by
  obtain ⟨h1, h2⟩ := entity_letters h
  obtain ⟨h3, h4⟩ := lettersBefore_column hc hp
  obtain ⟨g1, g2, g3, g4, g5, g6⟩ := h
  unfold getEntityRange
  dsimp only
  rw [show subU p.character (lettersBefore d.text (d.offsetAt p)) =
    .ok (p.character - lettersBefore d.text (d.offsetAt p)) from if_pos h3]
  have hk : d.offsetAt p - (d.offsetAt p - k) = k := by omega
  simp only [bind, Except.bind]
  rw [h1] at h4 ⊢
  rw [hk] at h4 ⊢
  rw [h2, if_pos ⟨g1, g2⟩]
  have hrun := hc.run (a := k) (j := n) (fun i a b => isLetterOrDigit_iff.2 (g5 i a b))
  rw [h4] at hrun
  by_cases hs : d.text[k + n]? = some 59
  · rw [if_pos hs, if_pos hs]
    have := hc (k + n) 59 hs (by omega) (by omega) (by omega)
    rw [this, hrun, h4]
  · rw [if_neg hs, if_neg hs, hrun, h4]

theorem getEntityRange_none (hc : Columns d) (hp : Exact d p)
    (h : ∀ k n, ¬ EntityAt d.text (d.offsetAt p) k n) : getEntityRange d p (d.offsetAt p) = .ok none := by
  obtain ⟨h3, h4⟩ := lettersBefore_column hc hp
  obtain ⟨g1, g2, g3⟩ := lettersBefore_spec d.text (d.offsetAt p)
  unfold getEntityRange
  dsimp only
  rw [show subU p.character (lettersBefore d.text (d.offsetAt p)) =
    .ok (p.character - lettersBefore d.text (d.offsetAt p)) from if_pos h3]
  simp only [bind, Except.bind]
  generalize hk : d.offsetAt p - lettersBefore d.text (d.offsetAt p) = k at *
  obtain ⟨f1, f2⟩ := lettersFrom_spec d.text d.text.length k (by omega)
  rw [if_neg]
  rintro ⟨h5, h6⟩
  apply h k (lettersFrom d.text d.text.length k)
  refine ⟨h5, h6, by omega, ?_, fun i a b => isLetterOrDigit_iff.1 (f1 i a b), isLetterOrDigit_false.1 f2⟩
  rcases Nat.lt_or_ge (k + lettersFrom d.text d.text.length k) (d.offsetAt p) with hlt | hge
  · have := g2 (k + lettersFrom d.text d.text.length k) (by omega) hlt
    rw [f2] at this; cases this
  · exact hge

theorem entityHover1_eq (name : Str) (r : Range) (l : HMap Str) :
    e.entityHover1 (b!"&" ++ name ++ b!";") r l =
      (l.find? (fun x => x.1 = name ++ b!";")).map fun x =>
        ⟨⟨false, b!"Character entity representing '" ++ x.2 ++ b!"', unicode equivalent '" ++
          entityCode x.2 ++ b!"'"⟩, some r⟩ := by
  induction l with
  | nil => rfl
  | cons x l ih =>
    obtain ⟨k, v⟩ := x
    rw [HoverEnv.entityHover1, ih, List.find?_cons]
    have hk : (b!"&" ++ name ++ b!";" = b!"&" ++ k) ↔ k = name ++ b!";" := by
      simp only [List.cons_append, List.nil_append, List.cons.injEq, true_and]
      exact eq_comm
    by_cases h : k = name ++ b!";"
    · rw [if_pos (hk.2 h)]
      simp only [h, decide_true, Option.map_some]
      unfold HoverEnv.convert
      split <;> rfl
    · rw [if_neg (fun h' => h (hk.1 h'))]
      simp only [h, decide_false]

theorem entityHover_eq {k n : Nat} {r : Range} {o : Nat} (h : EntityAt d.text o k n) :
    e.entityHover d.text r o = .ok (entityAnswer e (bytesIn d.text k (k + n)) r) := by
  obtain ⟨h1, h2⟩ := entity_letters h
  obtain ⟨g1, _, g3, _⟩ := h
  unfold HoverEnv.entityHover filterEntity
  simp only [bind, Except.bind]
  rw [h1, if_neg (by omega)]
  simp only
  rw [show o - (o - k) = k by omega, h2, entityHover1_eq]
  rfl

theorem entityHover_total {r : Range} (h : getEntityRange d p (d.offsetAt p) = .ok (some r)) :
    ∃ x, e.entityHover d.text r (d.offsetAt p) = .ok x := by
  unfold getEntityRange at h
  obtain ⟨s, _, h⟩ := bind_ok h
  dsimp only at h
  have hm : ¬ lettersBefore d.text (d.offsetAt p) = d.offsetAt p := by
    intro hm
    rw [hm] at h
    rw [if_neg (by omega)] at h
    cases h
  unfold HoverEnv.entityHover filterEntity
  simp only
  rw [if_neg hm]
  exact ⟨_, rfl⟩

/-- The range of an entity contains the cursor. -/
theorem getEntityRange_contains {r : Range} (h : getEntityRange d p (d.offsetAt p) = .ok (some r)) :
    InRange p r := by
  unfold getEntityRange at h
  obtain ⟨s, hs, h⟩ := bind_ok h
  obtain ⟨hle, hs⟩ := subU_ok hs
  obtain ⟨g1, g2, g3⟩ := lettersBefore_spec d.text (d.offsetAt p)
  dsimp only at h
  generalize hk : d.offsetAt p - lettersBefore d.text (d.offsetAt p) = k at *
  obtain ⟨f1, f2⟩ := lettersFrom_spec d.text d.text.length k (by omega)
  have hn : lettersBefore d.text (d.offsetAt p) ≤ lettersFrom d.text d.text.length k := by
    rcases Nat.lt_or_ge (k + lettersFrom d.text d.text.length k) (d.offsetAt p) with hlt | hge
    · have := g2 (k + lettersFrom d.text d.text.length k) (by omega) hlt
      rw [f2] at this; cases this
    · omega
  split at h
  · split at h
    all_goals
      cases h
      exact ⟨.inr ⟨rfl, by simp only; omega⟩, .inr ⟨rfl, by simp only; omega⟩⟩
  · cases h

/-! ### Names of tags -/

theorem scanTo_le {k : TT} {s' : Sc} : ∀ {f : Nat} {s : Sc}, scanTo c k f s = .ok s' →
    s.pos ≤ c.src.length → s.pos ≤ s'.tokenOffset
  | 0, s, h, _ => by cases h
  | f + 1, s, h, hp => by
    unfold scanTo at h
    obtain ⟨s1, h1, h⟩ := bind_ok h
    have hle := (scan_step h1).pos_le hp
    split at h
    · cases h
      rw [(scan_step h1).offset_eq]
      exact Nat.le_refl _
    · have := scanTo_le h hle.2
      omega

theorem scanWhile_scanTo {k : TT} {o : Nat} {s' : Sc} (hk : k ≠ .EOS) : ∀ {f : Nat} {s : Sc},
    scanTo c k f s = .ok s' → s.pos ≤ c.src.length → s'.tokenType = k → s'.tokenOffset ≤ o → o ≤ s'.pos →
    scanWhile c (fun t => decide (t.stop < o ∨ (t.stop = o ∧ t.type ≠ k))) f s = .ok s'
  | 0, s, h, _, _, _, _ => by cases h
  | f + 1, s, h, hp, ht, h1, h2 => by
    unfold scanTo at h
    obtain ⟨s1, hs, h⟩ := bind_ok h
    unfold scanWhile
    simp only [hs, bind, Except.bind]
    split at h
    · cases h
      rw [if_neg]
      rintro ⟨_, hc⟩
      simp only [decide_eq_true_eq] at hc
      rcases hc with hc | hc
      · simp only [Sc.tok] at hc; omega
      · exact hc.2 ht
    · rename_i hne
      have hle := (scan_step hs).pos_le hp
      have := scanTo_le h hle.2
      rw [if_pos]
      · exact scanWhile_scanTo hk h hle.2 ht h1 h2
      · refine ⟨fun h => hne (.inl h), ?_⟩
        rw [decide_eq_true_eq]
        simp only [Sc.tok]
        rcases Nat.lt_or_ge s1.pos o with h | h
        · exact .inl h
        · exact .inr ⟨by omega, fun h => hne (.inr h)⟩

theorem tokenRange_of_scanTo {k : TT} {i o : Nat} {s' : Sc} (hk : k ≠ .EOS) (hi : i ≤ d.text.length)
    (h : scanTo (e.cfg d) k (2 * d.text.length + 1) (.new i .WithinContent) = .ok s')
    (ht : s'.tokenType = k) (h1 : s'.tokenOffset ≤ o) (h2 : o ≤ s'.pos) :
    e.tokenRange d k i o = .ok (some ⟨d.posAt s'.tokenOffset, d.posAt s'.pos⟩) := by
  unfold HoverEnv.tokenRange
  rw [scanWhile_scanTo hk h hi ht h1 h2]
  simp only [bind, Except.bind]
  rw [if_pos ⟨ht, h2⟩]

theorem tokenRange_startTag {i hi : Nat} {t : Str} (h60 : d.text[i]? = some 60)
    (h : NameIs e.uni d.text (i + 1) (some t) hi) :
    ∃ a, NameAt d.text (i + 1) t a ∧ a + t.length ≤ hi ∧ ∀ o, a ≤ o → o ≤ a + t.length →
      e.tokenRange d .StartTag i o = .ok (some ⟨d.posAt a, d.posAt (a + t.length)⟩) := by
  obtain ⟨w, h1, h2, h3, h4, h5, h6⟩ := h.nameAt
  have ht := h5.1.1
  have hlt := (List.getElem?_eq_some_iff.1 h60).1
  have hlen : 1 < d.text.length := by
    have := List.length_pos_iff.2 ht
    obtain ⟨r, hr⟩ := h2
    have := congrArg List.length hr
    simp at this; omega
  obtain ⟨k, hk⟩ : ∃ k, 2 * d.text.length + 1 = k + 3 := ⟨2 * d.text.length - 2, by omega⟩
  obtain ⟨s', h7, h8, h9, h10⟩ := scanTo_startTag (c := e.cfg d) h60 h1 h2 h3 h4 ht k
  rw [← hk] at h7
  refine ⟨_, h5, h6, fun o ho ho' => ?_⟩
  rw [tokenRange_of_scanTo (by decide) (by omega) h7 h8 (by omega) (by omega), h9, h10]

theorem tokenRange_endTag {i hi : Nat} {t : Str} (h60 : At d.text i b!"</")
    (h : NameIs e.uni d.text (i + 2) (some t) hi) :
    ∃ a, NameAt d.text (i + 2) t a ∧ a + t.length ≤ hi ∧ ∀ o, a ≤ o → o ≤ a + t.length →
      e.tokenRange d .EndTag i o = .ok (some ⟨d.posAt a, d.posAt (a + t.length)⟩) := by
  obtain ⟨w, h1, h2, h3, h4, h5, h6⟩ := h.nameAt
  have ht := h5.1.1
  have hlen : i + 2 ≤ d.text.length ∧ 1 < d.text.length := by
    have := List.length_pos_iff.2 ht
    obtain ⟨r, hr⟩ := h60
    have := congrArg List.length hr
    simp at this; omega
  obtain ⟨k, hk⟩ : ∃ k, 2 * d.text.length + 1 = k + 3 := ⟨2 * d.text.length - 2, by omega⟩
  obtain ⟨s', h7, h8, h9, h10⟩ := scanTo_endTag (c := e.cfg d) h60 h1 h2 h3 h4 ht k
  rw [← hk] at h7
  refine ⟨_, h5, h6, fun o ho ho' => ?_⟩
  rw [tokenRange_of_scanTo (by decide) (by omega) h7 h8 (by omega) (by omega), h9, h10]

/-! ### The attribute of a value -/

theorem attrBefore_run {start : Nat} {t : Tok} {post : List Tok} (hn : AsciiNext c.src)
    (ht : t.type = .AttributeValue) (hto : t.offset = start) (hts : start < t.stop) :
    ∀ {pre : List Tok} {s s2 : Sc} {f : Nat} {prev : Option Str},
      Run c s (pre ++ t :: post) s2 → Contiguous s.pos (pre ++ t :: post) s2.pos →
      s.tokenType ≠ .EOS → s.pos ≤ start → pre.length + 1 < f →
      attrBefore c start f prev s =
        .ok ((((pre.filter (fun x => x.type = .AttributeName)).getLast?).map (text c.src)).or prev)
  | pre, s, s2, 0, prev, _, _, _, _, hf => by omega
  | [], s, s2, f + 1, prev, hr, hc, he, hp, hf => by
    obtain ⟨f, rfl⟩ : ∃ k, f = k + 1 := ⟨f - 1, by simp at hf; omega⟩
    cases hr with
    | @cons _ s1 _ _ hs hne hr =>
      unfold attrBefore
      rw [if_pos ⟨he, hp⟩]
      simp only [hs, bind, Except.bind]
      have h1 : s1.tokenType = .AttributeValue := ht
      rw [if_neg (by rw [h1]; decide)]
      simp only
      unfold attrBefore
      rw [if_neg]
      · rfl
      · rintro ⟨_, h⟩
        have : s1.pos > start := hts
        omega
  | x :: pre, s, s2, f + 1, prev, hr, hc, he, hp, hf => by
    cases hr with
    | @cons _ s1 _ _ hs hne hr =>
      unfold attrBefore
      rw [if_pos ⟨he, hp⟩]
      simp only [hs, bind, Except.bind]
      obtain ⟨hc1, hc2, hc3⟩ := hc
      have hle : s1.pos ≤ start := by
        have := contiguous_ge hc3 (t := t) (by simp)
        rw [hto] at this
        exact this
      have ih := fun prev => attrBefore_run hn ht hto hts (f := f) (prev := prev) hr hc3 hne hle
        (by simp at hf; omega)
      by_cases hx : s1.tokenType = .AttributeName
      · rw [if_pos hx]
        obtain ⟨b1, b2⟩ := (scan_step hs).attrBd hn (.inl hx)
        have htt : tokenText c s1 = .ok (text c.src s1.tok) := by
          unfold tokenText text
          rw [(scan_step hs).offset_eq]
          have : s.pos ≤ s1.pos := by
            have h := hc2
            rw [show s1.tok.offset = s.pos from hc1] at h
            exact h
          rw [sliceStr_eq this b1 b2]
          simp only [Sc.tok, bytesIn]
          rw [(scan_step hs).offset_eq]
        simp only [htt]
        rw [ih, List.filter_cons_of_pos (by rw [decide_eq_true_eq]; exact hx)]
        cases hl : pre.filter (fun x => decide (x.type = .AttributeName)) with
        | nil => rfl
        | cons y l =>
          rw [List.getLast?_cons_cons]
          cases hy : (y :: l).getLast? with
          | none => simp at hy
          | some z => rfl
      · rw [if_neg hx]
        simp only
        rw [ih, List.filter_cons_of_neg (by rw [decide_eq_true_eq]; exact hx)]

theorem attrBefore_total (hn : AsciiNext c.src) {start : Nat} : ∀ {f : Nat} {prev : Option Str} {s : Sc},
    (∀ n, ∃ s', scanN c n s = .ok s') → mu c s + 1 < f → ∃ x, attrBefore c start f prev s = .ok x
  | 0, _, _, _, h => by omega
  | f + 1, prev, s, hp, hm => by
    unfold attrBefore
    split
    · obtain ⟨s', h1⟩ := hp 1
      unfold scanN at h1
      obtain ⟨s1, hs, _⟩ := bind_ok h1
      have hp1 : ∀ n, ∃ s', scanN c n s1 = .ok s' := by
        intro n
        obtain ⟨s', h2⟩ := hp (n + 1)
        unfold scanN at h2
        rw [hs] at h2
        exact ⟨s', h2⟩
      rw [hs]
      simp only [bind, Except.bind]
      by_cases he : s1.tokenType = .EOS
      · rw [if_neg (by rw [he]; decide)]
        obtain ⟨f, rfl⟩ : ∃ k, f = k + 1 := ⟨f - 1, by omega⟩
        refine ⟨prev, ?_⟩
        show attrBefore c start (f + 1) prev s1 = _
        unfold attrBefore
        rw [if_neg (fun h => h.1 he)]
      · have hmu := (scan_step hs).mu_lt he
        by_cases hx : s1.tokenType = .AttributeName
        · have htt : tokenText c s1 = .ok (bytesIn c.src s1.tokenOffset s1.pos) := by
            have hb := (scan_step hs).attrBd hn (.inl hx)
            unfold tokenText
            have hle := (scan_step hs).offset_le
            rw [(scan_step hs).offset_eq] at hle ⊢
            exact sliceStr_eq hle hb.1 hb.2
          rw [if_pos hx, htt]
          exact attrBefore_total hn hp1 (by omega)
        · rw [if_neg hx]
          exact attrBefore_total hn hp1 (by omega)
    · exact ⟨_, rfl⟩

/-- Attribute names and values lie between characters. -/
theorem Run.attrBd (hn : AsciiNext c.src) {s s2 : Sc} {ts : List Tok} (h : Run c s ts s2) {t : Tok} (ht : t ∈ ts)
    (hk : t.type = .AttributeName ∨ t.type = .AttributeValue) :
    isBoundary c.src t.offset = true ∧ isBoundary c.src t.stop = true := by
  induction h with
  | nil s => cases ht
  | cons h hne hr ih =>
    rcases List.mem_cons.1 ht with rfl | ht
    · have := (scan_step h).attrBd hn hk
      refine ⟨?_, this.2⟩
      show isBoundary c.src (Sc.tokenOffset _) = true
      rw [(scan_step h).offset_eq]
      exact this.1
    · exact ih ht

/-- Columns of the reference document. -/
theorem ref_columns (s : Str) : Columns (.ref s) := by
  intro o b h1 h2 h3 h4
  show refPosAt s (o + 1) = ⟨(refPosAt s o).line, (refPosAt s o).character + 1⟩
  replace h1 : s[o]? = some b := h1
  induction s generalizing o with
  | nil => simp at h1
  | cons x t ih =>
    cases o with
    | zero =>
      simp at h1
      subst h1
      have hb : isBreak x t = false := by simp [isBreak, h3, h4]
      have hu : units x = 1 := by
        have : isCont x = false := by simp [isCont]; omega
        simp only [units, this, Bool.false_eq_true, if_false]
        rw [if_neg (by omega)]
      simp only [refPosAt, ref_zero, hb, hu, Bool.false_eq_true, if_false, if_true]
    | succ o =>
      have := ih o (by simpa using h1)
      simp only [refPosAt] at this ⊢
      rw [this]
      simp only
      split
      · rfl
      · split
        · simp only [Nat.add_assoc]
        · rfl

/-- Where an answer comes from. -/
def HoverSource (e : HoverEnv) (a : Hover) : Prop :=
    (∃ tag r, tagAnswer e tag r = some a) ∨ (∃ tag attr o r, attrAnswer e tag attr o r = some a) ∨
    (∃ name r, entityAnswer e name r = some a) ∨ (∃ tag attr v r, valueAnswer e tag attr v r = some a) ∨
    e.participants.findSome? (·.onContent) = some a

theorem doHover_source {p : Pos} {roots : List Node} {a : Hover} (ha : doHover e d p roots = .ok (some a)) :
    HoverSource e a := by
  unfold doHover at ha
  dsimp only at ha
  cases hf : findNodeAt roots (d.offsetAt p) with
  | none => simp only [hf] at ha; cases ha
  | some x =>
    obtain ⟨n, ps⟩ := x
    simp only [hf] at ha
    cases ht : n.tag with
    | none => simp only [ht] at ha; cases ha
    | some tag =>
      simp only [ht] at ha
      have hinside : e.hoverInside d p n tag (d.offsetAt p) = .ok (some a) → HoverSource e a := by
        intro ha
        unfold HoverEnv.hoverInside at ha
        obtain ⟨x, hx, ha⟩ := bind_ok ha
        cases x with
        | some g =>
          simp only [Except.ok.injEq] at ha
          rw [tagHover_eq] at ha
          exact .inl ⟨_, _, ha⟩
        | none =>
          simp only at ha
          obtain ⟨x, hx, ha⟩ := bind_ok ha
          cases x with
          | some g =>
            simp only at ha
            obtain ⟨attr, _, ha⟩ := bind_ok ha
            simp only [Except.ok.injEq] at ha
            rw [attrHover_eq] at ha
            exact .inr (.inl ⟨_, _, _, _, ha⟩)
          | none =>
            simp only at ha
            obtain ⟨x, hx, ha⟩ := bind_ok ha
            cases x with
            | some g =>
              simp only at ha
              unfold HoverEnv.entityHover at ha
              obtain ⟨name, hname, ha⟩ := bind_ok ha
              unfold filterEntity at hname
              dsimp only at hname
              split at hname
              · cases hname
              · cases hname
                rw [entityHover1_eq] at ha
                simp only [Except.ok.injEq] at ha
                exact .inr (.inr (.inl ⟨_, _, ha⟩))
            | none =>
              simp only at ha
              unfold HoverEnv.hoverValue at ha
              obtain ⟨x, hx, ha⟩ := bind_ok ha
              cases x with
              | none =>
                simp only [Except.ok.injEq] at ha
                rw [firstAnswer_eq] at ha
                exact .inr (.inr (.inr (.inr ha)))
              | some g =>
                simp only at ha
                obtain ⟨y, hy, ha⟩ := bind_ok ha
                obtain ⟨z, hz, ha⟩ := bind_ok ha
                cases z with
                | none =>
                  simp only [Except.ok.injEq] at ha
                  rw [firstAnswer_eq] at ha
                  exact .inr (.inr (.inr (.inr ha)))
                | some attr =>
                  simp only [Except.ok.injEq] at ha
                  rw [attrValueHover_eq] at ha
                  exact .inr (.inr (.inr (.inl ⟨_, _, _, _, ha⟩)))
      cases he : n.endTagStart with
      | none => simp only [he] at ha; exact hinside ha
      | some b =>
        simp only [he] at ha
        split at ha
        · obtain ⟨x, hx, ha⟩ := bind_ok ha
          cases x with
          | none => cases ha
          | some g =>
            simp only [Except.ok.injEq] at ha
            rw [tagHover_eq] at ha
            exact .inl ⟨_, _, ha⟩
        · exact hinside ha

theorem docOf_kind {x : Option Description} {y : Option (List Reference)} {m : Markup}
    (h : docOf e x y = some m) : m.markdown = e.supportsMarkdown := by
  unfold docOf generateDocumentation at h
  dsimp only at h
  split at h
  · cases h; rfl
  · cases h

theorem trimQuotes_eq {x y : Str} (h : unquoted x y) : trimQuotes x = y := by
  rcases h with ⟨rfl, hne, h1, h2⟩ | ⟨q, hq, rfl⟩
  · unfold trimQuotes
    have ha : x.head?.any isQuote = false := by
      cases hx : x.head? with
      | none => rfl
      | some b => have := h1 b hx; simp [isQuote, this]
    have hb : x.getLast?.any isQuote = false := by
      cases hx : x.getLast? with
      | none => rfl
      | some b => have := h2 b hx; simp [isQuote, this]
    split
    · rename_i hl
      rw [if_neg]
      cases x with
      | nil => simp
      | cons b x =>
        cases x with
        | nil => simpa using ha
        | cons _ _ => simp at hl
    · simp only [ha, Bool.false_eq_true, if_false, hb]
  · unfold trimQuotes
    have hqq : isQuote q = true := by rcases hq with rfl | rfl <;> rfl
    rw [if_neg (by simp)]
    simp [hqq]

end Html
