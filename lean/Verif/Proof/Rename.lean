import Verif.Spec.Rename
import Verif.Proof.Print
import Verif.Proof.TagServices
import Verif.Proof.ParseEnd

/-! # Renaming an element of a printed document -/

namespace Html
open Spec

theorem TagText.print_len (t : TagText) :
    t.print.length = 1 + t.name.length + (printAttrs t.attrs).length + t.gap.length := by
  simp [TagText.print]; omega

theorem TagText.rename_other {tag : TagText} {new : Str} {o i : Nat} (h : i ≠ o) :
    tag.rename (i = o) new = tag := by simp [TagText.rename, h]

theorem TagText.rename_this {tag : TagText} {new : Str} {i : Nat} :
    tag.rename (i = i) new = { tag with name := new } := by simp [TagText.rename]

/-! ### Where the nodes of a printed document are -/

mutual
theorem item_starts {n : Node} {i : Nat} : ∀ it : Item, InForest (it.nodes i) n →
    i ≤ n.start ∧ n.start < i + it.print.length
  | .text _, h => by
    simp only [Item.nodes] at h
    obtain ⟨_, hd, _⟩ := inForest_cases h
    cases hd
  | .comment _, h => by
    simp only [Item.nodes] at h
    obtain ⟨_, hd, _⟩ := inForest_cases h
    cases hd
  | .doctype _ _, h => by
    simp only [Item.nodes] at h
    obtain ⟨_, hd, _⟩ := inForest_cases h
    cases hd
  | .void tag, h => by
    simp only [Item.nodes] at h
    obtain ⟨d, hd, hn⟩ := inForest_cases h
    rw [List.mem_singleton] at hd
    subst hd
    rcases hn with rfl | hn
    · simp [Item.print]
    · obtain ⟨_, hd, _⟩ := inForest_cases hn
      cases hd
  | .selfClosed tag, h => by
    simp only [Item.nodes] at h
    obtain ⟨d, hd, hn⟩ := inForest_cases h
    rw [List.mem_singleton] at hd
    subst hd
    rcases hn with rfl | hn
    · simp [Item.print]
    · obtain ⟨_, hd, _⟩ := inForest_cases hn
      cases hd
  | .elem tag kids gap, h => by
    simp only [Item.nodes] at h
    obtain ⟨d, hd, hn⟩ := inForest_cases h
    rw [List.mem_singleton] at hd
    subst hd
    rcases hn with rfl | hn
    · simp [Item.print]; omega
    · have := items_starts kids hn
      simp only [Item.print, List.length_append]
      simp
      omega
theorem items_starts {n : Node} {i : Nat} : ∀ l : List Item, InForest (nodesAll i l) n →
    i ≤ n.start ∧ n.start < i + (printAll l).length
  | [], h => by
    simp only [nodesAll] at h
    obtain ⟨_, hd, _⟩ := inForest_cases h
    cases hd
  | it :: l, h => by
    simp only [nodesAll] at h
    simp only [printAll, List.length_append]
    obtain ⟨d, hd, hn⟩ := inForest_cases h
    have : InForest (it.nodes i) n ∨ InForest (nodesAll (i + it.print.length) l) n := by
      rcases List.mem_append.1 hd with hd | hd
      · left; rcases hn with rfl | hn
        · exact .root hd
        · exact inForest_up hd hn
      · right; rcases hn with rfl | hn
        · exact .root hd
        · exact inForest_up hd hn
    rcases this with h | h
    · have := item_starts it h; omega
    · have := items_starts l h; omega
end

/-! ### Renaming elsewhere changes nothing -/

mutual
theorem rename_before {o : Nat} {new : Str} {i : Nat} (h : o < i) : ∀ it : Item, it.rename o new i = it
  | .text _ => rfl
  | .comment _ => rfl
  | .doctype _ _ => rfl
  | .void tag => by simp only [Item.rename]; rw [TagText.rename_other (by omega)]
  | .selfClosed tag => by simp only [Item.rename]; rw [TagText.rename_other (by omega)]
  | .elem tag kids gap => by
    simp only [Item.rename]
    rw [TagText.rename_other (by omega), renameAll_before (by omega)]
theorem renameAll_before {o : Nat} {new : Str} {i : Nat} (h : o < i) : ∀ l : List Item, renameAll o new i l = l
  | [] => rfl
  | it :: l => by
    simp only [renameAll]
    rw [rename_before h, renameAll_before (by omega)]
end

mutual
theorem rename_behind {o : Nat} {new : Str} {i : Nat} : ∀ it : Item, i + it.print.length ≤ o →
    it.rename o new i = it
  | .text _, _ => rfl
  | .comment _, _ => rfl
  | .doctype _ _, _ => rfl
  | .void tag, h => by
    simp [Item.print] at h
    simp only [Item.rename]; rw [TagText.rename_other (by omega)]
  | .selfClosed tag, h => by
    simp [Item.print] at h
    simp only [Item.rename]; rw [TagText.rename_other (by omega)]
  | .elem tag kids gap, h => by
    simp [Item.print] at h
    simp only [Item.rename]
    rw [TagText.rename_other (by omega), renameAll_behind kids (by omega)]
theorem renameAll_behind {o : Nat} {new : Str} {i : Nat} : ∀ l : List Item, i + (printAll l).length ≤ o →
    renameAll o new i l = l
  | [], _ => rfl
  | it :: l, h => by
    simp [printAll] at h
    simp only [renameAll]
    rw [rename_behind it (by omega), renameAll_behind l (by omega)]
end

/-! ### Renaming replaces the name in the text -/

/-- The text starts with an ASCII byte. -/
def AsciiHead (s : Str) : Prop := ∃ b r, s = b :: r ∧ b < 128

/-- `x` is `p` (at offset `i`) with the name `t` of `n` replaced by `new`. -/
def Cut (p x : Str) (i : Nat) (n : Node) (t new : Str) : Prop :=
  match n.endTagStart with
  | none => ∃ A C, p = A ++ (t ++ C) ∧ x = A ++ (new ++ C) ∧ i + A.length = n.start + 1 ∧ AsciiHead C
  | some e => ∃ A B C, p = A ++ (t ++ (B ++ (t ++ C))) ∧ x = A ++ (new ++ (B ++ (new ++ C))) ∧
      i + A.length = n.start + 1 ∧ i + A.length + t.length + B.length = e + 2 ∧
      AsciiHead B ∧ AsciiHead C

theorem AsciiHead.app {a b : Str} (h : AsciiHead a) : AsciiHead (a ++ b) := by
  obtain ⟨x, r, rfl, hx⟩ := h
  exact ⟨x, r ++ b, rfl, hx⟩

theorem Cut.wrap {p x : Str} {i j : Nat} {n : Node} {t new : Str} (L R : Str) (h : Cut p x j n t new)
    (hj : j = i + L.length) : Cut (L ++ (p ++ R)) (L ++ (x ++ R)) i n t new := by
  unfold Cut at *
  split
  · rename_i he
    rw [he] at h
    obtain ⟨A, C, rfl, rfl, h1, h2⟩ := h
    exact ⟨L ++ A, C ++ R, by simp, by simp, by simp; omega, h2.app⟩
  · rename_i e he
    rw [he] at h
    obtain ⟨A, B, C, rfl, rfl, h1, h2, h3, h4⟩ := h
    exact ⟨L ++ A, B, C ++ R, by simp, by simp, by simp; omega, by simp; omega, h3, h4.app⟩

theorem attrs_head {tag : TagText} (h : tag.Legal) (r : Str) (b : Nat) (hb : b < 128) :
    AsciiHead (printAttrs tag.attrs ++ (tag.gap ++ b :: r)) := by
  have space : ∀ {x : Nat}, Space x → x < 128 := by intro x hx; unfold Space at hx; omega
  cases ha : tag.attrs with
  | nil =>
    cases hg : tag.gap with
    | nil => exact ⟨b, r, rfl, hb⟩
    | cons x g => exact ⟨x, _, rfl, space (h.2 x (by simp [hg]))⟩
  | cons a l =>
    have hl := h.1.1 a (by simp [ha])
    cases hg : a.gap with
    | nil => exact absurd hg hl.1
    | cons x g => exact ⟨x, _, by simp [printAttrs, AttrText.print, hg]; rfl, space (hl.2.1 x (by simp [hg]))⟩

theorem raw_no_nodes {tag : TagText} {kids : List Item} {i : Nat} (h : RawElement tag kids) : nodesAll i kids = [] := by
  obtain ⟨body, rfl, -⟩ := h
  rfl

theorem no_inForest {n : Node} (h : InForest [] n) : False := by
  obtain ⟨_, hd, _⟩ := inForest_cases h
  cases hd

mutual
theorem item_cut {n : Node} {i : Nat} {t new : Str} {void : List Str} (ht : n.tag = some t) : ∀ it : Item,
    it.Legal void → InForest (it.nodes i) n → Cut it.print (it.rename n.start new i).print i n t new
  | .text _, _, h => by simp only [Item.nodes] at h; exact (no_inForest h).elim
  | .comment _, _, h => by simp only [Item.nodes] at h; exact (no_inForest h).elim
  | .doctype _ _, _, h => by simp only [Item.nodes] at h; exact (no_inForest h).elim
  | .void tag, hl, h => by
    simp only [Item.nodes, Item.Legal] at h hl
    obtain ⟨d, hd, hn⟩ := inForest_cases h
    rw [List.mem_singleton] at hd
    subst hd
    rcases hn with rfl | hn
    · cases ht
      rw [Item.rename, TagText.rename_this]
      exact ⟨b!"<", printAttrs tag.attrs ++ (tag.gap ++ b!">"), by simp [Item.print, TagText.print],
        by simp [Item.print, TagText.print], by simp, attrs_head hl.1 _ _ (by omega)⟩
    · exact (no_inForest hn).elim
  | .selfClosed tag, hl, h => by
    simp only [Item.nodes, Item.Legal] at h hl
    obtain ⟨d, hd, hn⟩ := inForest_cases h
    rw [List.mem_singleton] at hd
    subst hd
    rcases hn with rfl | hn
    · cases ht
      rw [Item.rename, TagText.rename_this]
      exact ⟨b!"<", printAttrs tag.attrs ++ (tag.gap ++ b!"/>"), by simp [Item.print, TagText.print],
        by simp [Item.print, TagText.print], by simp, attrs_head hl.1 _ _ (by omega)⟩
    · exact (no_inForest hn).elim
  | .elem tag kids gap, hl, h => by
    simp only [Item.nodes, Item.Legal] at h hl
    obtain ⟨d, hd, hn⟩ := inForest_cases h
    rw [List.mem_singleton] at hd
    subst hd
    rcases hn with rfl | hn
    · cases ht
      refine ⟨b!"<", printAttrs tag.attrs ++ (tag.gap ++ (b!">" ++ printAll kids ++ b!"</")), gap ++ b!">",
        by simp [Item.print, TagText.print], ?_, by simp, ?_, attrs_head hl.1 _ _ (by omega), ?_⟩
      · rw [Item.rename, TagText.rename_this, renameAll_before (by show i < _; omega)]
        simp [Item.print, TagText.print]
      · simp [TagText.print]; omega
      · cases gap with
        | nil => exact ⟨62, [], rfl, by omega⟩
        | cons b g =>
          have := hl.2.1 b (by simp)
          exact ⟨b, _, rfl, by unfold Space at this; omega⟩
    · have hk : AllLegal void kids := by
        rcases hl.2.2.2 with h | h
        · exact h.2
        · rw [raw_no_nodes h] at hn; exact (no_inForest hn).elim
      have h1 := items_starts kids hn
      have h2 := items_cut (new := new) ht kids hk hn
      simp only [Item.rename]
      rw [TagText.rename_other (by omega)]
      simp only [Item.print]
      have h3 := h2.wrap (i := i) (tag.print ++ b!">") (b!"</" ++ tag.name ++ gap ++ b!">") (by simp; omega)
      simpa using h3
theorem items_cut {n : Node} {i : Nat} {t new : Str} {void : List Str} (ht : n.tag = some t) : ∀ l : List Item,
    AllLegal void l → InForest (nodesAll i l) n →
    Cut (printAll l) (printAll (renameAll n.start new i l)) i n t new
  | [], _, h => by simp only [nodesAll] at h; exact (no_inForest h).elim
  | it :: l, hl, h => by
    simp only [nodesAll, AllLegal] at h hl
    obtain ⟨d, hd, hn⟩ := inForest_cases h
    have : InForest (it.nodes i) n ∨ InForest (nodesAll (i + it.print.length) l) n := by
      rcases List.mem_append.1 hd with hd | hd
      · left; rcases hn with rfl | hn
        · exact .root hd
        · exact inForest_up hd hn
      · right; rcases hn with rfl | hn
        · exact .root hd
        · exact inForest_up hd hn
    simp only [renameAll, printAll]
    rcases this with h | h
    · have h1 := item_starts it h
      have h2 := item_cut (new := new) ht it hl.1 h
      rw [renameAll_before (by omega)]
      simpa using h2.wrap (i := i) [] (printAll l) rfl
    · have h1 := items_starts l h
      have h2 := items_cut (new := new) ht l hl.2 h
      rw [rename_behind it (by omega)]
      simpa using h2.wrap (i := i) it.print [] rfl
end

/-! ### Legality -/

mutual
theorem item_legal {o : Nat} {new : Str} {i : Nat} {void : List Str} (hn : LegalName new) : ∀ it : Item,
    it.Legal void →
    (∀ n t, InForest (it.nodes i) n → n.start = o → n.tag = some t → LegalName t ∧ (t ∈ void ↔ new ∈ void)) →
    (it.rename o new i).Legal void
  | .text _, h, _ => h
  | .comment _, h, _ => h
  | .doctype _ _, h, _ => h
  | .void tag, h, hv => by
    simp only [Item.rename]
    by_cases e : i = o
    · subst e
      rw [TagText.rename_this]
      simp only [Item.Legal] at h ⊢
      exact ⟨h.1, hn,
        (hv _ tag.name (.root (by simp only [Item.nodes]; exact List.mem_singleton.2 rfl)) rfl rfl).2.1 h.2.2⟩
    · rw [TagText.rename_other e]; exact h
  | .selfClosed tag, h, hv => by
    simp only [Item.rename]
    by_cases e : i = o
    · subst e
      rw [TagText.rename_this]
      simp only [Item.Legal] at h ⊢
      exact ⟨h.1, hn.1, h.2.2⟩
    · rw [TagText.rename_other e]; exact h
  | .elem tag kids gap, h, hv => by
    simp only [Item.rename]
    simp only [Item.Legal] at h ⊢
    obtain ⟨h1, h2, h3, h4⟩ := h
    have h5 : AllLegal void kids → AllLegal void (renameAll o new (i + tag.print.length + 1) kids) := fun h4 =>
      items_legal (i := i + tag.print.length + 1) (o := o) hn kids h4 (fun n t hm => hv n t (by
        simp only [Item.nodes]
        exact inForest_up (List.mem_singleton.2 rfl) hm))
    by_cases e : i = o
    · subst e
      rw [TagText.rename_this]
      obtain ⟨g1, g2⟩ := hv _ tag.name (.root (by simp only [Item.nodes]; exact List.mem_singleton.2 rfl)) rfl rfl
      refine ⟨h1, h2, fun hx => h3 (g2.2 hx), .inl ⟨.inl hn, ?_⟩⟩
      rcases h4 with h4 | ⟨_, -, ⟨h4, -⟩ | ⟨h4, -⟩⟩
      · exact h5 h4.2
      · exact absurd (by rw [h4]; decide) g1.2.2
      · exact absurd (by rw [h4]; decide) g1.2.1
    · rw [TagText.rename_other e]
      refine ⟨h1, h2, h3, ?_⟩
      rcases h4 with h4 | h4
      · exact .inl ⟨h4.1, h5 h4.2⟩
      · obtain ⟨body, rfl, h6⟩ := h4
        exact .inr ⟨body, rfl, h6⟩
theorem items_legal {o : Nat} {new : Str} {i : Nat} {void : List Str} (hn : LegalName new) : ∀ l : List Item,
    AllLegal void l →
    (∀ n t, InForest (nodesAll i l) n → n.start = o → n.tag = some t → LegalName t ∧ (t ∈ void ↔ new ∈ void)) →
    AllLegal void (renameAll o new i l)
  | [], _, _ => trivial
  | it :: l, h, hv => by
    simp only [AllLegal, renameAll, nodesAll] at h hv ⊢
    refine ⟨item_legal hn it h.1 fun n t hm => hv n t (hm.sub fun x hx => by simp [hx]),
      items_legal hn l h.2 fun n t hm => hv n t (hm.sub fun x hx => by simp [hx])⟩
end

mutual
theorem item_tag {n : Node} {i : Nat} {void : List Str} : ∀ it : Item, it.Legal void →
    InForest (it.nodes i) n → ∃ t, n.tag = some t ∧ TagName t
  | .text _, _, h => by simp only [Item.nodes] at h; exact (no_inForest h).elim
  | .comment _, _, h => by simp only [Item.nodes] at h; exact (no_inForest h).elim
  | .doctype _ _, _, h => by simp only [Item.nodes] at h; exact (no_inForest h).elim
  | .void tag, hl, h => by
    simp only [Item.nodes, Item.Legal] at h hl
    obtain ⟨d, hd, hn⟩ := inForest_cases h
    rw [List.mem_singleton] at hd
    subst hd
    rcases hn with rfl | hn
    · exact ⟨tag.name, rfl, hl.2.1.1⟩
    · exact (no_inForest hn).elim
  | .selfClosed tag, hl, h => by
    simp only [Item.nodes, Item.Legal] at h hl
    obtain ⟨d, hd, hn⟩ := inForest_cases h
    rw [List.mem_singleton] at hd
    subst hd
    rcases hn with rfl | hn
    · exact ⟨tag.name, rfl, hl.2.1⟩
    · exact (no_inForest hn).elim
  | .elem tag kids gap, hl, h => by
    simp only [Item.nodes, Item.Legal] at h hl
    obtain ⟨d, hd, hn⟩ := inForest_cases h
    rw [List.mem_singleton] at hd
    subst hd
    rcases hn with rfl | hn
    · refine ⟨tag.name, rfl, ?_⟩
      rcases hl.2.2.2 with ⟨hk | hk, -⟩ | hk
      · exact hk.1
      · exact hk.name
      · exact hk.name
    · rcases hl.2.2.2 with hk | hk
      · exact items_tag kids hk.2 hn
      · rw [raw_no_nodes hk] at hn; exact (no_inForest hn).elim
theorem items_tag {n : Node} {i : Nat} {void : List Str} : ∀ l : List Item, AllLegal void l →
    InForest (nodesAll i l) n → ∃ t, n.tag = some t ∧ TagName t
  | [], _, h => by simp only [nodesAll] at h; exact (no_inForest h).elim
  | it :: l, hl, h => by
    simp only [nodesAll, AllLegal] at h hl
    obtain ⟨d, hd, hn⟩ := inForest_cases h
    rcases List.mem_append.1 hd with hd | hd
    · refine item_tag (i := i) it hl.1 ?_
      rcases hn with rfl | hn
      · exact .root hd
      · exact inForest_up hd hn
    · refine items_tag (i := i + it.print.length) l hl.2 ?_
      rcases hn with rfl | hn
      · exact .root hd
      · exact inForest_up hd hn
end

/-! ### Applying the edits -/

theorem boundary_at {A C : Str} (h : AsciiHead C) : isBoundary (A ++ C) A.length = true := by
  obtain ⟨b, r, rfl, hb⟩ := h
  exact isBoundary_of_get (b := b) (by simp) (by simp [isCont]; omega)

/-- Applying the edits of rename gives the text of the renamed document. -/
theorem apply_rename {d : TextDoc} {items : List Item} {void : List Str} {n : Node} {t new : Str}
    (hd : Lawful d) (htext : d.text = printAll items) (hl : AllLegal void items)
    (hn : InForest (nodesAll 0 items) n) (ht : n.tag = some t) :
    applyEdits d (⟨⟨d.posAt (n.start + 1), d.posAt (n.start + 1 + t.length)⟩, new⟩ ::
        (n.endTagStart.toList.map fun e => ⟨⟨d.posAt (e + 2), d.posAt (e + 2 + t.length)⟩, new⟩)) =
      printAll (renameAll n.start new 0 items) := by
  have hcut := items_cut (new := new) ht items hl hn
  obtain ⟨t', ht', hlegal⟩ := items_tag items hl hn
  rw [ht] at ht'; cases ht'
  have htA : ∀ x, AsciiHead (t ++ x) := by
    obtain ⟨⟨b, r, rfl, hb⟩, -⟩ := id hlegal
    exact fun x => ⟨b, r ++ x, rfl, hlegal.ascii b (by simp)⟩
  have rt : ∀ {A C : Str} {o : Nat}, d.text = A ++ C → AsciiHead C → o = A.length →
      d.offsetAt (d.posAt o) = o := by
    intro A C o h hc ho
    subst ho
    refine hd.roundTrip _ (by rw [h]; simp) ?_
    rw [h]; exact boundary_at hc
  unfold Cut at hcut
  split at hcut
  · rename_i he
    obtain ⟨A, C, h1, h2, h3, h4⟩ := hcut
    rw [h1] at htext
    simp only [he, Option.toList_none, List.map_nil, applyEdits]
    rw [rt htext (htA _) (by omega), rt (A := A ++ t) (C := C) (by rw [htext]; simp) h4 (by simp; omega),
      htext, h2, show n.start + 1 = A.length by omega]
    simp [List.drop_append]
  · rename_i e he
    obtain ⟨A, B, C, h1, h2, h3, h3', h4, h5⟩ := hcut
    rw [h1] at htext
    simp only [he, Option.toList_some, List.map_cons, List.map_nil, applyEdits]
    rw [rt (o := n.start + 1) htext (htA _) (by omega),
      rt (o := n.start + 1 + t.length) (A := A ++ t) (C := B ++ (t ++ C)) (by rw [htext]; simp) h4.app (by simp; omega),
      rt (o := e + 2) (A := A ++ t ++ B) (C := t ++ C) (by rw [htext]; simp) (htA _) (by simp; omega),
      rt (o := e + 2 + t.length) (A := A ++ t ++ B ++ t) (C := C) (by rw [htext]; simp) h5 (by simp; omega),
      htext, h2, show n.start + 1 = A.length by omega, show e + 2 = (A ++ (t ++ B)).length by simp; omega]
    have e1 : (A ++ (t ++ (B ++ (t ++ C)))).take (A ++ (t ++ B)).length = A ++ (t ++ B) := by
      rw [show A ++ (t ++ (B ++ (t ++ C))) = (A ++ (t ++ B)) ++ (t ++ C) by simp]
      exact List.take_left
    have e2 : (A ++ (t ++ (B ++ (t ++ C)))).drop ((A ++ (t ++ B)).length + t.length) = C := by
      rw [show A ++ (t ++ (B ++ (t ++ C))) = ((A ++ (t ++ B)) ++ t) ++ C by simp, ← List.length_append]
      exact List.drop_left
    rw [e1, e2]
    have e3 : (A ++ (t ++ B) ++ new ++ C).take A.length = A := by
      rw [show A ++ (t ++ B) ++ new ++ C = A ++ ((t ++ B) ++ new ++ C) by simp]
      exact List.take_left
    have e4 : (A ++ (t ++ B) ++ new ++ C).drop (A.length + t.length) = B ++ (new ++ C) := by
      rw [show A ++ (t ++ B) ++ new ++ C = (A ++ t) ++ (B ++ (new ++ C)) by simp, ← List.length_append]
      exact List.drop_left
    rw [e3, e4]
    simp

theorem applyEdits_ascii {d : TextDoc} (hd : isAscii d.text) (es : List TextEdit)
    (h : ∀ e ∈ es, isAscii e.newText) : isAscii (applyEdits d es) := by
  induction es with
  | nil => exact hd
  | cons e es ih =>
    have ih := ih fun x hx => h x (by simp [hx])
    intro b hb
    simp only [applyEdits, List.mem_append] at hb
    rcases hb with (hb | hb) | hb
    · exact ih b (List.mem_of_mem_take hb)
    · exact h e (by simp) b hb
    · exact ih b (List.mem_of_mem_drop hb)

/-- Different nodes start at different offsets. -/
theorem start_unique {u : Uni} {cs : Bool} {void : List Str} {src : Str} {roots : List Node} {m n : Node}
    (h : parse u cs void src = .ok roots) (hm : InForest roots m) (hn : InForest roots n)
    (hs : m.start = n.start) : m = n := by
  have key : ∀ {m n : Node}, InForest roots n → m.start = n.start → InForest roots m →
      ∃ ps, findNodeAt roots n.start = some (m, ps) := by
    intro m n hn hs hm
    have hd := parse_done h hm
    refine findNodeAt_of_covers h hm ⟨by omega, by have := hd.lt; omega⟩ fun d hd' hc => ?_
    cases he : m.startTagEnd with
    | none => rw [(hd.noste he).1] at hd'; cases hd'
    | some e =>
      obtain ⟨h4, _, h5, _⟩ := hd.ste e he
      have := (h5.mem hd').1
      have := hc.1
      omega
  obtain ⟨_, h1⟩ := key hn hs hm
  obtain ⟨_, h2⟩ := key hn rfl hn
  rw [h1] at h2
  cases h2; rfl

end Html
