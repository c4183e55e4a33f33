import Verif.Proof.Rename

/-!
# Renaming back
-/

namespace Html
open Spec

theorem nodesAll_cases {n : Node} {i : Nat} {it : Item} {l : List Item} (h : InForest (nodesAll i (it :: l)) n) :
    InForest (it.nodes i) n ∨ InForest (nodesAll (i + it.print.length) l) n := by
  simp only [nodesAll] at h
  obtain ⟨d, hd, hn⟩ := inForest_cases h
  rcases List.mem_append.1 hd with hd | hd
  · left; rcases hn with rfl | hn
    · exact .root hd
    · exact inForest_up hd hn
  · right; rcases hn with rfl | hn
    · exact .root hd
    · exact inForest_up hd hn

mutual
/-- The renamed element is in the renamed document. -/
theorem item_renamed {n : Node} {i : Nat} {new : Str} : ∀ it : Item, InForest (it.nodes i) n →
    ∃ n', InForest ((it.rename n.start new i).nodes i) n' ∧ n'.start = n.start ∧ n'.tag = some new ∧
      ∃ s, n'.startTagEnd = some s
  | .text _, h => by simp only [Item.nodes] at h; exact (no_inForest h).elim
  | .comment _, h => by simp only [Item.nodes] at h; exact (no_inForest h).elim
  | .doctype _ _, h => by simp only [Item.nodes] at h; exact (no_inForest h).elim
  | .void tag, h => by
    simp only [Item.nodes] at h
    obtain ⟨d, hd, hn⟩ := inForest_cases h
    rw [List.mem_singleton] at hd
    subst hd
    rcases hn with rfl | hn
    · simp only [Item.rename, Item.nodes, TagText.rename, decide_true, if_true]
      exact ⟨_, .root (List.mem_singleton_self _), rfl, rfl, _, rfl⟩
    · exact (no_inForest hn).elim
  | .selfClosed tag, h => by
    simp only [Item.nodes] at h
    obtain ⟨d, hd, hn⟩ := inForest_cases h
    rw [List.mem_singleton] at hd
    subst hd
    rcases hn with rfl | hn
    · simp only [Item.rename, Item.nodes, TagText.rename, decide_true, if_true]
      exact ⟨_, .root (List.mem_singleton_self _), rfl, rfl, _, rfl⟩
    · exact (no_inForest hn).elim
  | .elem tag kids gap, h => by
    simp only [Item.nodes] at h
    obtain ⟨d, hd, hn⟩ := inForest_cases h
    rw [List.mem_singleton] at hd
    subst hd
    rcases hn with rfl | hn
    · simp only [Item.rename, Item.nodes, TagText.rename, decide_true, if_true]
      exact ⟨_, .root (List.mem_singleton_self _), rfl, rfl, _, rfl⟩
    · have hs := items_starts kids hn
      obtain ⟨n', h1, h2⟩ := items_renamed (new := new) kids hn
      refine ⟨n', ?_, h2⟩
      simp only [Item.rename, Item.nodes]
      rw [TagText.rename_other (by omega)]
      exact inForest_up (List.mem_singleton.2 rfl) h1
theorem items_renamed {n : Node} {i : Nat} {new : Str} : ∀ l : List Item, InForest (nodesAll i l) n →
    ∃ n', InForest (nodesAll i (renameAll n.start new i l)) n' ∧ n'.start = n.start ∧ n'.tag = some new ∧
      ∃ s, n'.startTagEnd = some s
  | [], h => by simp only [nodesAll] at h; exact (no_inForest h).elim
  | it :: l, h => by
    simp only [renameAll, nodesAll]
    rcases nodesAll_cases h with h | h
    · obtain ⟨n', h1, h2⟩ := item_renamed (new := new) it h
      exact ⟨n', h1.sub fun x hx => by simp [hx], h2⟩
    · have hs := items_starts l h
      obtain ⟨n', h1, h2⟩ := items_renamed (new := new) l h
      refine ⟨n', ?_, h2⟩
      rw [rename_behind it (by omega)]
      exact h1.sub fun x hx => by simp [hx]
end

mutual
/-- Renaming and renaming back gives the same document. -/
theorem item_undo {n : Node} {i : Nat} {t new : Str} (ht : n.tag = some t) : ∀ it : Item,
    InForest (it.nodes i) n → (it.rename n.start new i).rename n.start t i = it
  | .text _, _ => rfl
  | .comment _, _ => rfl
  | .doctype _ _, _ => rfl
  | .void tag, h => by
    simp only [Item.nodes] at h
    obtain ⟨d, hd, hn⟩ := inForest_cases h
    rw [List.mem_singleton] at hd
    subst hd
    rcases hn with rfl | hn
    · cases ht
      simp only [Item.rename, TagText.rename, decide_true, if_true]
    · exact (no_inForest hn).elim
  | .selfClosed tag, h => by
    simp only [Item.nodes] at h
    obtain ⟨d, hd, hn⟩ := inForest_cases h
    rw [List.mem_singleton] at hd
    subst hd
    rcases hn with rfl | hn
    · cases ht
      simp only [Item.rename, TagText.rename, decide_true, if_true]
    · exact (no_inForest hn).elim
  | .elem tag kids gap, h => by
    simp only [Item.nodes] at h
    obtain ⟨d, hd, hn⟩ := inForest_cases h
    rw [List.mem_singleton] at hd
    subst hd
    rcases hn with rfl | hn
    · cases ht
      simp only [Item.rename, TagText.rename, decide_true, if_true]
      rw [renameAll_before (by omega), renameAll_before (by omega)]
    · have hs := items_starts kids hn
      simp only [Item.rename]
      rw [TagText.rename_other (new := new) (by omega), TagText.rename_other (by omega), items_undo ht kids hn]
theorem items_undo {n : Node} {i : Nat} {t new : Str} (ht : n.tag = some t) : ∀ l : List Item,
    InForest (nodesAll i l) n → renameAll n.start t i (renameAll n.start new i l) = l
  | [], _ => rfl
  | it :: l, h => by
    simp only [renameAll]
    rcases nodesAll_cases h with h | h
    · have hs := item_starts it h
      obtain ⟨n', h1, h2, _⟩ := item_renamed (new := new) it h
      have hs' := item_starts _ h1
      rw [item_undo ht it h, renameAll_before (new := new) (by omega), renameAll_before (by omega)]
    · have hs := items_starts l h
      rw [rename_behind (new := new) it (by omega), rename_behind it (by omega), items_undo ht l h]
end

end Html
