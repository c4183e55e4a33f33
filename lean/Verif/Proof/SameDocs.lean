import Verif.Spec.SameDocs
import Verif.Proof.Items
import Verif.Proof.HoverTree
import Verif.Proof.AcceptTag

/-! # The documentation in proposals and hovers -/

namespace Html
open Spec Props

variable {e : CompEnv} {e' : HoverEnv}

theorem docOf_eq (h : e'.documentation = true) (h' : e'.references = true) (x : Option Description) (rs : Option (List Reference)) :
    docOf e' x rs = hoverDoc e'.supportsMarkdown x rs := by
  have := itemDoc_eq e'.supportsMarkdown x rs
  unfold docOf
  rw [h, h']
  unfold itemDoc entryDoc at this
  unfold hoverDoc
  cases hg : generateDocumentation x rs ⟨true, true, e'.supportsMarkdown⟩ with
  | none =>
    rw [hg] at this
    split at this
    · rw [if_pos (by assumption)]
    · cases this
  | some m =>
    rw [hg] at this
    split at this
    · cases this
    · rw [if_neg (by assumption)]
      simp only [Option.map_some, Option.some.injEq] at this
      cases this
      rfl

theorem entryDoc_hover (m : Bool) (x : Option Description) (rs : Option (List Reference)) :
    entryDoc m x rs = (hoverDoc m x rs).map ItemDoc.markup := by
  unfold entryDoc hoverDoc
  split <;> rfl

theorem sameTag_refl (a : Str) : SameTag e' a a := by
  unfold SameTag; split <;> rfl

theorem findSome_agree {α β : Type} {l : List α} {f : α → Option β} (P : β → Prop) (h : ∃ a ∈ l, f a ≠ none)
    (hp : ∀ a ∈ l, ∀ b, f a = some b → P b) : ∃ b, l.findSome? f = some b ∧ P b := by
  cases hf : l.findSome? f with
  | none =>
    obtain ⟨a, h1, h2⟩ := h
    rw [List.findSome?_eq_none_iff] at hf
    exact absurd (hf a h1) h2
  | some b =>
    obtain ⟨a, h1, h2⟩ := List.exists_of_findSome?_eq_some hf
    exact ⟨b, rfl, hp a h1 b h2⟩

theorem tagAnswer_only {k : TagData} {range : Range} (hs : e'.documentation = true ∧ e'.references = true)
    (hk : ∃ p ∈ e'.providers, p.isApplicable e'.languageId = true ∧ k ∈ p.provideTags)
    (ho : ∀ p ∈ e'.providers, p.isApplicable e'.languageId = true → ∀ t ∈ p.provideTags, SameTag e' t.name k.name →
      t.description = k.description ∧ t.references = k.references) :
    tagAnswer e' k.name range =
      some ⟨⟨e'.supportsMarkdown, docText e'.supportsMarkdown k.description k.references⟩, some range⟩ := by
  obtain ⟨t, h1, h2, h3⟩ := findSome_agree (l := e'.providers.filter (·.isApplicable e'.languageId)) (f := knownTag e' k.name)
    (fun t => t.description = k.description ∧ t.references = k.references) (by
      obtain ⟨p, p1, p2, p3⟩ := hk
      refine ⟨p, List.mem_filter.2 ⟨p1, p2⟩, fun h => ?_⟩
      unfold knownTag at h
      rw [List.getLast?_eq_none_iff, List.filter_eq_nil_iff] at h
      exact h k p3 (decide_eq_true (sameTag_refl _))) (by
      intro p hp t ht
      obtain ⟨p1, p2⟩ := List.mem_filter.1 hp
      have := List.mem_of_getLast? ht
      obtain ⟨t1, t2⟩ := List.mem_filter.1 this
      exact ho p p1 p2 t t1 (of_decide_eq_true t2))
  unfold tagAnswer
  rw [h1]
  simp only [Option.map_some, h2, h3, docOf_eq hs.1 hs.2]
  unfold hoverDoc
  split
  · rename_i h
    rw [h]; rfl
  · rfl

theorem attrAnswer_only {tag : Str} {o : Nat} {a : AttributeData} {range : Range} (hs : e'.documentation = true ∧ e'.references = true)
    (hd : a.description ≠ none)
    (hk : ∃ p ∈ e'.providers, p.isApplicable e'.languageId = true ∧ a ∈ p.provideAttributes tag o)
    (ho : ∀ p ∈ e'.providers, p.isApplicable e'.languageId = true → ∀ t ∈ p.provideAttributes tag o, t.name = a.name →
      t.description ≠ none → t.description = a.description ∧ t.references = a.references) :
    attrAnswer e' tag a.name o range =
      (hoverDoc e'.supportsMarkdown a.description a.references).map (⟨·, some range⟩) := by
  have known : ∀ p ∈ e'.providers.filter (·.isApplicable e'.languageId),
      attrDoc e' tag a.name o p = none ∨ attrDoc e' tag a.name o p = hoverDoc e'.supportsMarkdown a.description a.references := by
    intro p hp
    obtain ⟨p1, p2⟩ := List.mem_filter.1 hp
    unfold attrDoc
    cases hg : ((p.provideAttributes tag o).filter (fun x => x.name = a.name ∧ x.description ≠ none)).getLast? with
    | none => exact .inl rfl
    | some t =>
      right
      obtain ⟨t1, t2⟩ := List.mem_filter.1 (List.mem_of_getLast? hg)
      have t2 := of_decide_eq_true t2
      obtain ⟨t3, t4⟩ := ho p p1 p2 t t1 t2.1 t2.2
      simp only [Option.bind_some, t3, t4, docOf_eq hs.1 hs.2]
  unfold attrAnswer
  congr 1
  cases hx : hoverDoc e'.supportsMarkdown a.description a.references with
  | none =>
    rw [List.findSome?_eq_none_iff]
    intro p hp
    rcases known p hp with h | h
    · exact h
    · rw [h, hx]
  | some m =>
    obtain ⟨b, h1, h2⟩ := findSome_agree (l := e'.providers.filter (·.isApplicable e'.languageId)) (f := attrDoc e' tag a.name o)
      (· = m) (by
        obtain ⟨p, p1, p2, p3⟩ := hk
        refine ⟨p, List.mem_filter.2 ⟨p1, p2⟩, fun h => ?_⟩
        unfold attrDoc at h
        cases hg : ((p.provideAttributes tag o).filter (fun x => x.name = a.name ∧ x.description ≠ none)).getLast? with
        | none =>
          rw [List.getLast?_eq_none_iff, List.filter_eq_nil_iff] at hg
          exact hg a p3 (decide_eq_true ⟨rfl, hd⟩)
        | some t =>
          rw [hg] at h
          obtain ⟨t1, t2⟩ := List.mem_filter.1 (List.mem_of_getLast? hg)
          have t2 := of_decide_eq_true t2
          obtain ⟨t3, t4⟩ := ho p p1 p2 t t1 t2.1 t2.2
          simp only [Option.bind_some, t3, t4, docOf_eq hs.1 hs.2, hx] at h
          cases h) (by
        intro p hp b hb
        rcases known p hp with h | h
        · rw [h] at hb; cases hb
        · rw [h, hx] at hb; cases hb; rfl)
    rw [h1, h2]

theorem valueAnswer_only {tag attr : Str} {v : ValueData} {range : Range} (hs : e'.documentation = true ∧ e'.references = true)
    (hpart : ∀ q ∈ e'.participants, q.onAttributeValue tag attr v.name range = none)
    (hd : v.description ≠ none)
    (hk : ∃ p ∈ e'.providers, p.isApplicable e'.languageId = true ∧ v ∈ p.provideValues tag attr)
    (ho : ∀ p ∈ e'.providers, p.isApplicable e'.languageId = true → ∀ t ∈ p.provideValues tag attr, t.name = v.name →
      t.description ≠ none → t.description = v.description ∧ t.references = v.references) :
    valueAnswer e' tag attr v.name range =
      (hoverDoc e'.supportsMarkdown v.description v.references).map (⟨·, some range⟩) := by
  have known : ∀ p ∈ e'.providers.filter (·.isApplicable e'.languageId), ∀ t ∈ (p.provideValues tag attr).filter
      (fun x => x.name = v.name ∧ x.description ≠ none),
      docOf e' t.description t.references = hoverDoc e'.supportsMarkdown v.description v.references := by
    intro p hp t ht
    obtain ⟨p1, p2⟩ := List.mem_filter.1 hp
    obtain ⟨t1, t2⟩ := List.mem_filter.1 ht
    have t2 := of_decide_eq_true t2
    obtain ⟨t3, t4⟩ := ho p p1 p2 t t1 t2.1 t2.2
    rw [t3, t4, docOf_eq hs.1 hs.2]
  unfold valueAnswer
  rw [show e'.participants.findSome? (·.onAttributeValue tag attr v.name range) = none from List.findSome?_eq_none_iff.2 hpart]
  simp only [Option.none_or]
  congr 1
  cases hx : hoverDoc e'.supportsMarkdown v.description v.references with
  | none =>
    rw [List.findSome?_eq_none_iff]
    intro p hp
    unfold valueDoc
    rw [List.findSome?_eq_none_iff]
    intro t ht
    rw [known p hp t ht, hx]
  | some m =>
    obtain ⟨b, h1, h2⟩ := findSome_agree (l := e'.providers.filter (·.isApplicable e'.languageId)) (f := valueDoc e' tag attr v.name)
      (· = m) (by
        obtain ⟨p, p1, p2, p3⟩ := hk
        refine ⟨p, List.mem_filter.2 ⟨p1, p2⟩, fun h => ?_⟩
        unfold valueDoc at h
        rw [List.findSome?_eq_none_iff] at h
        have hm : v ∈ (p.provideValues tag attr).filter (fun x => x.name = v.name ∧ x.description ≠ none) :=
          List.mem_filter.2 ⟨p3, decide_eq_true ⟨rfl, hd⟩⟩
        have := h v hm
        rw [known p (List.mem_filter.2 ⟨p1, p2⟩) v hm, hx] at this
        cases this) (by
        intro p hp b hb
        unfold valueDoc at hb
        obtain ⟨t, t1, t2⟩ := List.exists_of_findSome?_eq_some hb
        rw [known p hp t t1, hx] at t2
        cases t2; rfl)
    rw [h1, h2]

end Html
