import Verif.Spec.Items
import Verif.Proof.TagProposals

/-! # What proposals look like -/

namespace Html
open Spec

variable {x : CompCtx}

/-! ### Documentation -/

theorem refsText_eq (m : Bool) (rs : List Reference) :
    docText.refsText m rs = join (if m then b!" | " else b!"\n") (rs.map (·.format m)) := by
  induction rs with
  | nil => rfl
  | cons r rs ih =>
    cases rs with
    | nil => rfl
    | cons q qs =>
      rw [docText.refsText, ih]
      · rfl
      · simp

theorem refsText_ne (m : Bool) (r : Reference) (rs : List Reference) : docText.refsText m (r :: rs) ≠ [] := by
  cases rs with
  | nil => cases m <;> simp [docText.refsText, docText.ref]
  | cons q qs => cases m <;> simp [docText.refsText, docText.ref]

theorem docReferences_eq (m : Bool) (rs : Option (List Reference)) (v : Str) :
    docReferences rs ⟨true, true, m⟩ v = docText.joined m v (rs.getD []) := by
  unfold docReferences docText.joined
  cases rs with
  | none => simp [docText.refsText]
  | some rs =>
    cases rs with
    | nil => simp [docText.refsText]
    | cons r rs =>
      rw [refsText_eq]
      cases v with
      | nil => cases m <;> simp
      | cons c cs => cases m <;> simp

theorem itemDoc_eq (m : Bool) (d : Option Description) (rs : Option (List Reference)) :
    itemDoc m d rs = entryDoc m d rs := by
  have hv : docReferences rs ⟨true, true, m⟩ (docDescription d ⟨true, true, m⟩) = docText m d rs := by
    rw [docReferences_eq]
    unfold docText docDescription
    cases d with
    | none =>
      cases h : rs.getD [] with
      | nil => simp [docText.joined, docText.refsText]
      | cons r l => simp [docText.joined]
    | some d => cases d <;> rfl
  unfold itemDoc entryDoc generateDocumentation
  simp only [hv]
  cases docText m d rs <;> simp

/-! ### The kinds of proposals -/

/-- All items are described by the specification or come from participants. -/
def CompCtx.Good (x : CompCtx) (r : List CompItem) : Prop := ∀ i ∈ r, FromParticipant x.env i ∨ Proposal x.env i

theorem Good.append {a b : List CompItem} (h1 : x.Good a) (h2 : x.Good b) : x.Good (a ++ b) := fun i hi =>
  (List.mem_append.1 hi).elim (h1 i) (h2 i)

theorem Good.nil : x.Good [] := fun _ h => by cases h

theorem Good.one {i : CompItem} (h : Proposal x.env i) : x.Good [i] := fun j hj => by
  cases List.mem_singleton.1 hj; exact .inr h

theorem mem_knownTags {e : CompEnv} {p : Provider} {t : TagData} (hp : p ∈ e.active) (ht : t ∈ p.provideTags) :
    t ∈ knownTags e := by
  rw [active_eq] at hp
  exact List.mem_flatMap.2 ⟨p, hp, ht⟩

theorem good_openTags {a b : Nat} : x.Good (x.openTags a b) := by
  intro i hi
  unfold CompCtx.openTags at hi
  obtain ⟨p, hp, hi⟩ := List.mem_flatMap.1 hi
  obtain ⟨t, ht, rfl⟩ := List.mem_map.1 hi
  exact .inr (.tag t ⟨mem_knownTags hp ht, rfl, rfl, itemDoc_eq _ _ _, rfl, ⟨rfl, _, rfl⟩, rfl⟩)

theorem good_endTags : x.Good x.endTags := by
  intro i hi
  unfold CompCtx.endTags at hi
  obtain ⟨p, hp, hi⟩ := List.mem_flatMap.1 hi
  obtain ⟨t, ht, rfl⟩ := List.mem_map.1 hi
  exact .inr (.endTag t ⟨mem_knownTags hp ht, rfl, rfl, itemDoc_eq _ _ _, rfl, rfl, rfl⟩)

theorem good_closeItem {n : Node} {tag close : Str} {a b : Nat} (hc : close = [] ∨ close = b!">") {i : CompItem}
    (h : x.closeItem n tag close a b = .ok i) : CloseItem tag i := by
  unfold CompCtx.closeItem at h
  obtain ⟨si, _, h⟩ := bind_ok h
  obtain ⟨before, _, h⟩ := bind_ok h
  obtain ⟨ei, _, h⟩ := bind_ok h
  split at h
  · split at h
    · obtain ⟨rep, _, h⟩ := bind_ok h
      cases h
      exact ⟨rfl, rfl, rfl, ⟨close, hc, .inr ⟨_, _, ⟨rfl, _, rfl⟩, rfl⟩⟩, rfl⟩
    · cases h
      exact ⟨rfl, rfl, rfl, ⟨close, hc, .inl ⟨⟨rfl, _, rfl⟩, rfl⟩⟩, rfl⟩
  · cases h
    exact ⟨rfl, rfl, rfl, ⟨close, hc, .inl ⟨⟨rfl, _, rfl⟩, rfl⟩⟩, rfl⟩

theorem good_closeTags {a b : Nat} {c : Bool} {r : List CompItem} (h : x.closeTags a c b = .ok r) : x.Good r := by
  unfold CompCtx.closeTags at h
  obtain ⟨f, _, h⟩ := bind_ok h
  split at h
  · obtain ⟨i, h1, h⟩ := bind_ok h
    cases h
    refine Good.one (.close _ (good_closeItem ?_ h1))
    cases f <;> simp
  · cases h
    split
    · exact Good.nil
    · exact good_endTags

theorem good_tags {a b : Nat} {r : List CompItem} (h : x.tags a b = .ok r) : x.Good r := by
  unfold CompCtx.tags at h
  obtain ⟨c, h1, h⟩ := bind_ok h
  cases h
  exact Good.append good_openTags (good_closeTags h1)

theorem attrItems_mem {range : Range} {v : Str} {as : List AttributeData} {ex : HMap Bool} :
    ∀ i ∈ (x.attrItems range v as ex).1, ∃ a ∈ as, i = x.attrItem range v a := by
  induction as generalizing ex with
  | nil => intro i hi; cases hi
  | cons a as ih =>
    intro i hi
    rw [CompCtx.attrItems] at hi
    split at hi
    · obtain ⟨b, hb, h⟩ := ih i hi
      exact ⟨b, List.mem_cons_of_mem _ hb, h⟩
    · rcases List.mem_cons.1 hi with rfl | hi
      · exact ⟨a, List.mem_cons_self, rfl⟩
      · obtain ⟨b, hb, h⟩ := ih i hi
        exact ⟨b, List.mem_cons_of_mem _ hb, h⟩

theorem providerAttrs_mem {range : Range} {v : Str} {tag : Option Str} {ps : List Provider} {ex : HMap Bool}
    {r : List CompItem × HMap Bool} (h : x.providerAttrs range v tag ps ex = .ok r) :
    ∀ i ∈ r.1, ∃ p ∈ ps, ∃ t, ∃ a ∈ p.provideAttributes t x.offset, i = x.attrItem range v a := by
  induction ps generalizing ex r with
  | nil => cases h; intro i hi; cases hi
  | cons p ps ih =>
    rw [CompCtx.providerAttrs] at h
    obtain ⟨t, _, h⟩ := bind_ok h
    obtain ⟨q, h1, h⟩ := bind_ok h
    cases h
    intro i hi
    rcases List.mem_append.1 hi with hi | hi
    · obtain ⟨a, ha, h⟩ := attrItems_mem i hi
      exact ⟨p, List.mem_cons_self, t, a, ha, h⟩
    · obtain ⟨p', hp, h⟩ := ih h1 i hi
      exact ⟨p', List.mem_cons_of_mem _ hp, h⟩

theorem good_attrItem {range : Range} {v : Str} {a : AttributeData} (hv : v = [] ∨ v = assignText x.env.settings)
    (hk : ∃ tag o, Offers x.env (some tag) o a) : AttrItem x.env a (x.attrItem range v a) := by
  have hne : assignText x.env.settings ≠ [] := by rw [← assign_eq]; exact assign_ne _
  have key : ∀ w : Bool, w = (!(a.valueSet == some b!"v" || v.isEmpty)) →
      x.attrItem range v a =
        { label := a.name, kind := some (if a.valueSet = some b!"handler" then .function else .value),
          documentation := entryDoc x.env.supportsMarkdown a.description a.references,
          textEdit := some ⟨range, if w then a.name ++ v else a.name⟩, snippet := some true,
          suggest := w && (a.valueSet.isSome || a.name == b!"style") } := by
    rintro w rfl
    rw [← itemDoc_eq]
    rfl
  cases hw : (!(a.valueSet == some b!"v" || v.isEmpty)) with
  | false =>
    rw [key false hw.symm]
    refine ⟨hk, rfl, rfl, rfl, rfl, .inl ⟨rfl, _, rfl⟩, ?_⟩
    constructor
    · intro h; simp at h
    · rintro ⟨⟨_, r, h⟩, _⟩
      simp at h
      exact absurd h.2 hne
  | true =>
    rw [key true hw.symm]
    simp only [Bool.not_eq_true', Bool.or_eq_false_iff, beq_eq_false_iff_ne] at hw
    have hva : v = assignText x.env.settings := by
      rcases hv with rfl | hv
      · simp at hw
      · exact hv
    subst hva
    refine ⟨hk, rfl, rfl, rfl, rfl, .inr ⟨⟨rfl, _, rfl⟩, hw.1⟩, ?_⟩
    constructor
    · intro h
      refine ⟨⟨rfl, _, rfl⟩, ?_⟩
      simp [Option.isSome_iff_ne_none] at h
      exact h
    · rintro ⟨_, h⟩
      simp [Option.isSome_iff_ne_none]
      exact h

theorem good_dataItems {range : Range} {ex : HMap Bool} : x.Good (x.dataItems range ex) := by
  intro i hi
  unfold CompCtx.dataItems at hi
  obtain ⟨y, hy, rfl⟩ := List.mem_map.1 hi
  have hd := addDataAll_loop (ex := ex) x.roots [(b!"data-", b!"data-$1=\"$2\"")]
  refine .inr (.data ⟨?_, rfl, rfl, rfl, ⟨rfl, range, ?_⟩, rfl⟩)
  · have := (hd.mem y.1).1 (List.mem_map_of_mem hy)
    rcases this with h | h
    · simp at h; rw [h]; exact List.prefix_rfl
    · exact h.2.1
  · rcases hd.text y hy with h | ⟨h1, h2⟩
    · simp at h; subst h; rfl
    · simp only [Option.some.injEq, TextEdit.mk.injEq, true_and]
      rw [if_neg (by simpa using h1), h2]

theorem good_attrNames {tag : Option Str} {a b : Nat} {r : List CompItem} (h : x.attrNames tag a b = .ok r) :
    x.Good r := by
  unfold CompCtx.attrNames at h
  simp only at h
  obtain ⟨cur, _, h⟩ := bind_ok h
  obtain ⟨f, _, h⟩ := bind_ok h
  obtain ⟨q, h3, h⟩ := bind_ok h
  cases h
  refine Good.append (fun i hi => ?_) good_dataItems
  obtain ⟨p, hp, t, a, ha, rfl⟩ := providerAttrs_mem h3 i hi
  refine .inr (.attribute a (good_attrItem ?_ ⟨t, x.offset, offers_iff.1 ⟨p, hp, t, rfl, ha⟩⟩))
  rw [← assign_eq]
  cases f <;> simp

theorem good_attrValues {tag : Option Str} {attr : Str} {a b : Nat} {r : List CompItem}
    (h : x.attrValues tag attr a b = .ok r) : x.Good r := by
  unfold CompCtx.attrValues at h
  obtain ⟨q, h1, h⟩ := bind_ok h
  cases h
  refine Good.append (fun i hi => ?_) (fun i hi => ?_)
  · obtain ⟨p, hp, hi⟩ := List.mem_flatMap.1 hi
    exact .inl ⟨p, hp, .inr ⟨_, _, _, _, hi⟩⟩
  · obtain ⟨p, hp, hi⟩ := List.mem_flatMap.1 hi
    obtain ⟨v, hv, rfl⟩ := List.mem_map.1 hi
    rw [active_eq] at hp
    refine .inr (.value v ⟨⟨_, _, List.mem_flatMap.2 ⟨p, hp, hv⟩⟩, rfl, rfl, itemDoc_eq _ _ _, ?_, rfl⟩)
    cases hq : q.2.2 with
    | false =>
      refine ⟨[], .inl rfl, ⟨rfl, q.1, ?_⟩, ?_⟩
      · simp [CompCtx.valueItem]
      · simp [CompCtx.valueItem]
    | true =>
      refine ⟨b!"\"", .inr rfl, ⟨rfl, q.1, ?_⟩, ?_⟩
      · simp [CompCtx.valueItem]
      · simp [CompCtx.valueItem]

theorem good_insideContent {r : List CompItem} (h : x.insideContent = .ok r) : x.Good r := by
  unfold CompCtx.insideContent at h
  obtain ⟨q, h1, h⟩ := bind_ok h
  cases h
  refine Good.append (fun i hi => ?_) (fun i hi => ?_)
  · obtain ⟨p, hp, hi⟩ := List.mem_flatMap.1 hi
    exact .inl ⟨p, hp, .inl hi⟩
  · unfold CompCtx.entityItems at h1
    simp only at h1
    obtain ⟨st, h2, h1⟩ := bind_ok h1
    split at h1
    · obtain ⟨st', h3, h1⟩ := bind_ok h1
      cases h1
      obtain ⟨a, ha, rfl⟩ := List.mem_map.1 hi
      obtain ⟨ha, hs⟩ := List.mem_filter.1 ha
      refine .inr (.entity a.1 a.2 ⟨⟨ha, ?_⟩, rfl, rfl, rfl, rfl, ⟨rfl, _, rfl⟩, rfl⟩)
      obtain ⟨l, hl⟩ := List.getLast?_eq_some_iff.1 (by simpa using hs)
      exact ⟨l, hl.symm⟩
    · cases h1; cases hi

theorem good_onToken {tag : Option Str} {attr : Str} {s : Sc} {r : List CompItem}
    (h : x.onToken tag attr s = .ok (some r)) : x.Good r := by
  unfold CompCtx.onToken at h
  split at h
  · unfold CompCtx.onStartTagOpen at h
    split at h
    · obtain ⟨stop, h1, h⟩ := bind_ok h
      obtain ⟨q, h2, h⟩ := bind_ok h
      cases h
      refine Good.append ?_ (good_tags h2)
      split
      · exact Good.one (.doctype ⟨rfl, rfl, rfl, rfl, ⟨rfl, _, rfl⟩, rfl⟩)
      · exact Good.nil
    · cases h
  · unfold CompCtx.onStartTag at h
    split at h
    · cases h
      exact good_openTags
    · cases h
  · unfold CompCtx.onAttributeName at h
    split at h
    · obtain ⟨q, h2, h⟩ := bind_ok h
      cases h
      exact good_attrNames h2
    · cases h
  · unfold CompCtx.onDelimiterAssign at h
    split at h
    · obtain ⟨stop, h1, h⟩ := bind_ok h
      obtain ⟨q, h2, h⟩ := bind_ok h
      cases h
      exact good_attrValues h2
    · cases h
  · unfold CompCtx.onAttributeValue at h
    split at h
    · obtain ⟨q, h2, h⟩ := bind_ok h
      cases h
      exact good_attrValues h2
    · cases h
  · unfold CompCtx.onWhitespace at h
    split at h
    · split at h
      · obtain ⟨stop, h1, h⟩ := bind_ok h
        obtain ⟨q, h2, h⟩ := bind_ok h
        cases h
        exact good_tags h2
      · obtain ⟨q, h2, h⟩ := bind_ok h
        cases h
        exact good_attrNames h2
      · obtain ⟨q, h2, h⟩ := bind_ok h
        cases h
        exact good_attrNames h2
      · obtain ⟨q, h2, h⟩ := bind_ok h
        cases h
        exact good_attrValues h2
      · obtain ⟨_, _, h⟩ := bind_ok h
        obtain ⟨q, h2, h⟩ := bind_ok h
        cases h
        exact good_closeTags h2
      · obtain ⟨q, h2, h⟩ := bind_ok h
        cases h
        exact good_insideContent h2
      · cases h
    · cases h
  · unfold CompCtx.onStartTagClose at h
    split at h
    · cases tag with
      | none => cases h
      | some t =>
        cases h
        unfold CompCtx.autoClose
        split
        · exact Good.nil
        · split
          · exact Good.nil
          · exact Good.one (.autoClose t ⟨rfl, rfl, rfl, rfl, ⟨rfl, _, rfl⟩, rfl⟩)
    · cases h
  · unfold CompCtx.onContent at h
    split at h
    · obtain ⟨q, h2, h⟩ := bind_ok h
      cases h
      exact good_insideContent h2
    · cases h
  · unfold CompCtx.onEndTagOpen at h
    split at h
    · obtain ⟨stop, h1, h⟩ := bind_ok h
      obtain ⟨q, h2, h⟩ := bind_ok h
      cases h
      exact good_closeTags h2
    · cases h
  · unfold CompCtx.onEndTag at h
    split at h
    · obtain ⟨_, _, h⟩ := bind_ok h
      obtain ⟨q, _, h⟩ := bind_ok h
      split at h
      · obtain ⟨q, h2, h⟩ := bind_ok h
        cases h
        exact good_closeTags h2
      · cases h
    · cases h
  · split at h
    · cases h; exact Good.nil
    · cases h

theorem good_loop {f : Nat} {tag : Option Str} {attr : Str} {s : Sc} {r : List CompItem}
    (h : x.loop f tag attr s = .ok r) : x.Good r := by
  induction f generalizing tag attr s with
  | zero => cases h
  | succ f ih =>
    rw [CompCtx.loop] at h
    split at h
    · obtain ⟨q, h1, h⟩ := bind_ok h
      split at h
      · cases h
        exact good_onToken h1
      · obtain ⟨_, _, h⟩ := bind_ok h
        obtain ⟨_, _, h⟩ := bind_ok h
        obtain ⟨s1, h2, h⟩ := bind_ok h
        exact ih h
    · cases h; exact Good.nil

end Html
