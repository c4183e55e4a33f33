import Verif.Proof.AttrProposals

/-! # Where the edits of completion apply -/

namespace Html
open Spec

variable {x : CompCtx}

/-- The edit of an item is around the cursor. -/
def CompCtx.Around (x : CompCtx) (i : CompItem) : Prop :=
  ∀ ed, i.textEdit = some ed →
    (∃ a b, a ≤ x.offset ∧ x.offset ≤ b ∧ ed.range = ⟨x.doc.posAt a, x.doc.posAt b⟩) ∨
    (ed.range.start.line = x.position.line ∧ ed.range.start.character < x.position.character ∧
      ed.range.stop = x.position)

/-- All items are around the cursor or come from participants. -/
def CompCtx.Fine (x : CompCtx) (r : List CompItem) : Prop := ∀ i ∈ r, FromParticipant x.env i ∨ x.Around i

theorem Fine.append {a b : List CompItem} (h1 : x.Fine a) (h2 : x.Fine b) : x.Fine (a ++ b) := fun i hi =>
  (List.mem_append.1 hi).elim (h1 i) (h2 i)

theorem Fine.nil : x.Fine [] := fun _ h => by cases h

theorem Fine.one {i : CompItem} (h : x.Around i) : x.Fine [i] := fun j hj => by
  cases List.mem_singleton.1 hj; exact .inr h

theorem around_range {a b : Nat} (hb : x.offset ≤ b) {i : CompItem} {t : Str}
    (hi : i.textEdit = some ⟨x.replaceRange a b, t⟩) : x.Around i := by
  intro ed he
  rw [hi] at he
  cases he
  exact .inl ⟨min a x.offset, b, Nat.min_le_right _ _, hb, rfl⟩

theorem fine_openTags {a b : Nat} (hb : x.offset ≤ b) : x.Fine (x.openTags a b) := by
  intro i hi
  unfold CompCtx.openTags at hi
  obtain ⟨p, _, hi⟩ := List.mem_flatMap.1 hi
  obtain ⟨t, _, rfl⟩ := List.mem_map.1 hi
  exact .inr (around_range hb rfl)

theorem fine_endTags : x.Fine x.endTags := by
  intro i hi
  unfold CompCtx.endTags at hi
  obtain ⟨p, _, hi⟩ := List.mem_flatMap.1 hi
  obtain ⟨t, _, rfl⟩ := List.mem_map.1 hi
  exact .inr fun ed he => by cases he

theorem around_closeItem {n : Node} {tag close : Str} {a b : Nat} (hb : x.offset ≤ b) {i : CompItem}
    (h : x.closeItem n tag close a b = .ok i) : x.Around i := by
  unfold CompCtx.closeItem at h
  obtain ⟨si, _, h⟩ := bind_ok h
  obtain ⟨before, _, h⟩ := bind_ok h
  obtain ⟨ei, _, h⟩ := bind_ok h
  split at h
  · split at h
    · obtain ⟨rep, _, h⟩ := bind_ok h
      cases h
      exact around_range (Nat.le_refl _) rfl
    · cases h
      exact around_range hb rfl
  · cases h
    exact around_range hb rfl

theorem fine_closeTags {a b : Nat} {c : Bool} {r : List CompItem} (hb : x.offset ≤ b)
    (h : x.closeTags a c b = .ok r) : x.Fine r := by
  unfold CompCtx.closeTags at h
  obtain ⟨f, _, h⟩ := bind_ok h
  split at h
  · obtain ⟨i, h1, h⟩ := bind_ok h
    cases h
    exact Fine.one (around_closeItem hb h1)
  · cases h
    split
    · exact Fine.nil
    · exact fine_endTags

theorem fine_tags {a b : Nat} {r : List CompItem} (hb : x.offset ≤ b) (h : x.tags a b = .ok r) : x.Fine r := by
  unfold CompCtx.tags at h
  obtain ⟨c, h1, h⟩ := bind_ok h
  cases h
  exact Fine.append (fine_openTags hb) (fine_closeTags hb h1)

theorem attrItems_edit {range : Range} {v : Str} {as : List AttributeData} {ex : HMap Bool} :
    ∀ i ∈ (x.attrItems range v as ex).1, ∃ t, i.textEdit = some ⟨range, t⟩ := by
  induction as generalizing ex with
  | nil => intro i hi; cases hi
  | cons a as ih =>
    intro i hi
    rw [CompCtx.attrItems] at hi
    split at hi
    · exact ih i hi
    · rcases List.mem_cons.1 hi with rfl | hi
      · exact ⟨_, rfl⟩
      · exact ih i hi

theorem providerAttrs_edit {range : Range} {v : Str} {tag : Option Str} {ps : List Provider} {ex : HMap Bool}
    {r : List CompItem × HMap Bool} (h : x.providerAttrs range v tag ps ex = .ok r) :
    ∀ i ∈ r.1, ∃ t, i.textEdit = some ⟨range, t⟩ := by
  induction ps generalizing ex r with
  | nil => cases h; intro i hi; cases hi
  | cons p ps ih =>
    rw [CompCtx.providerAttrs] at h
    obtain ⟨t, _, h⟩ := bind_ok h
    obtain ⟨q, h1, h⟩ := bind_ok h
    cases h
    intro i hi
    rcases List.mem_append.1 hi with hi | hi
    · exact attrItems_edit i hi
    · exact ih h1 i hi

theorem fine_attrNames {tag : Option Str} {a b : Nat} {r : List CompItem} (h : x.attrNames tag a b = .ok r) :
    x.Fine r := by
  unfold CompCtx.attrNames at h
  simp only at h
  obtain ⟨cur, _, h⟩ := bind_ok h
  obtain ⟨f, _, h⟩ := bind_ok h
  obtain ⟨q, h3, h⟩ := bind_ok h
  cases h
  have hb := (replaceEnd_bounds x.doc.text (b - x.offset) x.offset).1
  refine Fine.append (fun i hi => ?_) (fun i hi => ?_)
  · obtain ⟨t, ht⟩ := providerAttrs_edit h3 i hi
    exact .inr (around_range hb ht)
  · unfold CompCtx.dataItems at hi
    obtain ⟨y, _, rfl⟩ := List.mem_map.1 hi
    exact .inr (around_range hb rfl)

theorem wordEnd_le {text : Str} {f o r : Nat} (h : wordEnd text f o = .ok r) : o ≤ r := by
  induction f generalizing o with
  | zero => cases h; exact Nat.le_refl _
  | succ f ih =>
    rw [wordEnd] at h
    obtain ⟨c, _, h⟩ := bind_ok h
    split at h
    · cases h; exact Nat.le_refl _
    · have := ih h; omega

theorem fine_attrValues {tag : Option Str} {attr : Str} {a b : Nat} {r : List CompItem} (hb : x.offset ≤ b)
    (h : x.attrValues tag attr a b = .ok r) : x.Fine r := by
  unfold CompCtx.attrValues at h
  obtain ⟨q, h1, h⟩ := bind_ok h
  cases h
  refine Fine.append (fun i hi => ?_) (fun i hi => ?_)
  · obtain ⟨p, hp, hi⟩ := List.mem_flatMap.1 hi
    exact .inl ⟨p, hp, .inr ⟨_, _, _, _, hi⟩⟩
  · obtain ⟨p, hp, hi⟩ := List.mem_flatMap.1 hi
    obtain ⟨v, _, rfl⟩ := List.mem_map.1 hi
    unfold CompCtx.valueRange at h1
    obtain ⟨quoted, _, h1⟩ := bind_ok h1
    split at h1
    · obtain ⟨before, _, h1⟩ := bind_ok h1
      obtain ⟨after, h2, h1⟩ := bind_ok h1
      obtain ⟨pre, _, h1⟩ := bind_ok h1
      cases h1
      exact .inr (around_range (wordEnd_le h2) rfl)
    · obtain ⟨pre, _, h1⟩ := bind_ok h1
      cases h1
      exact .inr (around_range hb rfl)

theorem fine_insideContent {r : List CompItem} (h : x.insideContent = .ok r) : x.Fine r := by
  unfold CompCtx.insideContent at h
  obtain ⟨q, h1, h⟩ := bind_ok h
  cases h
  refine Fine.append (fun i hi => ?_) (fun i hi => ?_)
  · obtain ⟨p, hp, hi⟩ := List.mem_flatMap.1 hi
    exact .inl ⟨p, hp, .inl hi⟩
  · unfold CompCtx.entityItems at h1
    simp only at h1
    obtain ⟨st, h2, h1⟩ := bind_ok h1
    split at h1
    · obtain ⟨st', h3, h1⟩ := bind_ok h1
      cases h1
      obtain ⟨a, _, rfl⟩ := List.mem_map.1 hi
      right
      intro ed he
      cases he
      have := subU_ok h2
      have := subU_ok h3
      exact .inr ⟨rfl, by simp only; omega, rfl⟩
    · cases h1; cases hi

theorem nextEnd_ge {s : Sc} {k : TT} {b : Nat} (h : x.nextEnd s k = .ok b) : x.offset ≤ b := by
  unfold CompCtx.nextEnd at h
  split at h
  · obtain ⟨s1, h1, h⟩ := bind_ok h
    cases h
    split
    · rename_i h2
      have := (scan_step h1).offset_le
      omega
    · exact Nat.le_refl _
  · cases h; exact Nat.le_refl _

theorem fine_onToken {tag : Option Str} {attr : Str} {s0 s : Sc} {r : List CompItem}
    (hst : Step (x.env.cfg x.doc true) s0 s) (hlt : s.tokenOffset < x.offset)
    (h : x.onToken tag attr s = .ok (some r)) : x.Fine r := by
  unfold CompCtx.onToken at h
  split at h
  · unfold CompCtx.onStartTagOpen at h
    split at h
    · obtain ⟨stop, h1, h⟩ := bind_ok h
      obtain ⟨q, h2, h⟩ := bind_ok h
      cases h
      refine Fine.append ?_ (fine_tags (nextEnd_ge h1) h2)
      split
      · exact Fine.one (around_range (nextEnd_ge h1) rfl)
      · exact Fine.nil
    · cases h
  · unfold CompCtx.onStartTag at h
    split at h
    · rename_i ht
      cases h
      unfold CompCtx.touches at ht
      simp at ht
      exact fine_openTags ht.2
    · cases h
  · unfold CompCtx.onAttributeName at h
    split at h
    · obtain ⟨q, h2, h⟩ := bind_ok h
      cases h
      exact fine_attrNames h2
    · cases h
  · unfold CompCtx.onDelimiterAssign at h
    split at h
    · obtain ⟨stop, h1, h⟩ := bind_ok h
      obtain ⟨q, h2, h⟩ := bind_ok h
      cases h
      exact fine_attrValues (nextEnd_ge h1) h2
    · cases h
  · unfold CompCtx.onAttributeValue at h
    split at h
    · rename_i ht
      unfold CompCtx.touches at ht
      simp at ht
      obtain ⟨q, h2, h⟩ := bind_ok h
      cases h
      exact fine_attrValues ht.2 h2
    · cases h
  · unfold CompCtx.onWhitespace at h
    split at h
    · split at h
      · obtain ⟨stop, h1, h⟩ := bind_ok h
        obtain ⟨q, h2, h⟩ := bind_ok h
        cases h
        exact fine_tags (nextEnd_ge h1) h2
      · obtain ⟨q, h2, h⟩ := bind_ok h
        cases h
        exact fine_attrNames h2
      · obtain ⟨q, h2, h⟩ := bind_ok h
        cases h
        exact fine_attrNames h2
      · obtain ⟨q, h2, h⟩ := bind_ok h
        cases h
        exact fine_attrValues (Nat.le_refl _) h2
      · obtain ⟨_, _, h⟩ := bind_ok h
        obtain ⟨q, h2, h⟩ := bind_ok h
        cases h
        exact fine_closeTags (Nat.le_refl _) h2
      · obtain ⟨q, h2, h⟩ := bind_ok h
        cases h
        exact fine_insideContent h2
      · cases h
    · cases h
  · rename_i hk
    unfold CompCtx.onStartTagClose at h
    split at h
    · rename_i hle
      have hpos : s.pos = x.offset := by
        have hok := hst.textOK (by rw [hk]; decide)
        have hr := hst.pos_le (Nat.le_of_lt (Nat.lt_of_not_le (fun h => by
          have := hst.eos_iff.2 h
          rw [hk] at this; cases this)))
        have hr0 := hst.offset_eq
        unfold TextOK at hok
        rw [show s.tok.type = .StartTagClose from hk] at hok
        have hlen : (Spec.text (x.env.cfg x.doc true).src s.tok).length = s.pos - s.tokenOffset := by
          simp [Spec.text, Sc.tok]; omega
        rcases hok with hok | ⟨hok, _⟩ <;> rw [hok] at hlen <;> simp at hlen <;> omega
      cases tag with
      | none => cases h
      | some t =>
        cases h
        unfold CompCtx.autoClose
        split
        · exact Fine.nil
        · split
          · exact Fine.nil
          · refine Fine.one fun ed he => ?_
            cases he
            exact .inl ⟨s.pos, s.pos, by omega, by omega, rfl⟩
    · cases h
  · unfold CompCtx.onContent at h
    split at h
    · obtain ⟨q, h2, h⟩ := bind_ok h
      cases h
      exact fine_insideContent h2
    · cases h
  · unfold CompCtx.onEndTagOpen at h
    split at h
    · obtain ⟨stop, h1, h⟩ := bind_ok h
      obtain ⟨q, h2, h⟩ := bind_ok h
      cases h
      exact fine_closeTags (nextEnd_ge h1) h2
    · cases h
  · unfold CompCtx.onEndTag at h
    split at h
    · rename_i hle
      obtain ⟨_, _, h⟩ := bind_ok h
      obtain ⟨q, _, h⟩ := bind_ok h
      split at h
      · obtain ⟨q, h2, h⟩ := bind_ok h
        cases h
        exact fine_closeTags hle h2
      · cases h
    · cases h
  · split at h
    · cases h; exact Fine.nil
    · cases h

theorem fine_loop {f : Nat} {tag : Option Str} {attr : Str} {s0 s : Sc} {r : List CompItem}
    (hst : Step (x.env.cfg x.doc true) s0 s) (h : x.loop f tag attr s = .ok r) : x.Fine r := by
  induction f generalizing tag attr s0 s with
  | zero => cases h
  | succ f ih =>
    rw [CompCtx.loop] at h
    split at h
    · rename_i hc
      obtain ⟨q, h1, h⟩ := bind_ok h
      split at h
      · cases h
        exact fine_onToken hst hc.2 h1
      · obtain ⟨_, _, h⟩ := bind_ok h
        obtain ⟨_, _, h⟩ := bind_ok h
        obtain ⟨s1, h2, h⟩ := bind_ok h
        exact ih (scan_step h2) h
    · cases h; exact Fine.nil

end Html
