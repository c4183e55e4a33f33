import Verif.Proof.Encoded
import Verif.Spec.Rename

/-! # Renaming an element keeps a text UTF-8 -/

namespace Html
open Spec

theorem Enc.swap {x z name new w : Str} (h : Enc (x ++ (w ++ name ++ z))) (hw : isAscii w) (hw0 : w ≠ [])
    (hn : Enc new) (hz : Low z) : Enc (x ++ (w ++ new ++ z)) := by
  obtain ⟨h1, h2⟩ := h.split (by
    intro b hb
    refine headLow_ascii hw b ?_
    cases w with
    | nil => exact absurd rfl hw0
    | cons c w => exact hb)
  obtain ⟨_, h3⟩ := h2.split hz
  exact h1.append (((Enc.ascii hw).append hn).append h3)

theorem Enc.renameTag {x y new : Str} {t : TagText} {b : Bool} (h : Enc (x ++ (t.print ++ y))) (hn : Enc new)
    (hl : t.Legal) (hy : Low y) : Enc (x ++ ((t.rename b new).print ++ y)) := by
  cases b with
  | false => exact h
  | true =>
    have e : ∀ n : Str, (TagText.mk n t.attrs t.gap).print ++ y = b!"<" ++ n ++ (printAttrs t.attrs ++ (t.gap ++ y)) := by
      intro n; simp [TagText.print]
    have h' : Enc (x ++ ((TagText.mk t.name t.attrs t.gap).print ++ y)) := h
    show Enc (x ++ ((TagText.mk new t.attrs t.gap).print ++ y))
    rw [e] at h' ⊢
    exact h'.swap (by decide) (by decide) hn ((headLow_attrs hl.1.1).append ((headLow_ascii (spaces_ascii hl.2)).append hy))

theorem headLow_cons {b : Nat} {y : Str} (h : b < 128) : Low (b :: y) := by
  intro c hc
  cases hc
  exact h

mutual
theorem Item.rename_enc {void : List Str} {new x y : Str} {o : Nat} (hn : Enc new) (i : Nat) (it : Item) (hl : it.Legal void)
    (h : Enc (x ++ (it.print ++ y))) : Enc (x ++ ((it.rename o new i).print ++ y)) := by
  match it, hl with
  | .text t, _ => exact h
  | .comment b, _ => exact h
  | .doctype w b, _ => exact h
  | .void tag, hl =>
    simp only [Item.rename, Item.print, Item.Legal, List.append_assoc] at h hl ⊢
    exact h.renameTag hn hl.1 (headLow_cons (b := 62) (by omega))
  | .selfClosed tag, hl =>
    simp only [Item.rename, Item.print, Item.Legal, List.append_assoc] at h hl ⊢
    exact h.renameTag hn hl.1 (headLow_cons (b := 47) (by omega))
  | .elem tag kids gap, hl =>
    simp only [Item.rename, Item.print, Item.Legal, List.append_assoc] at h hl ⊢
    have h1 := h.renameTag (b := decide (i = o)) hn hl.1 (headLow_cons (b := 62) (by omega))
    have hk : Enc (x ++ ((tag.rename (i = o) new).print ++ (b!">" ++ (printAll (renameAll o new (i + tag.print.length + 1) kids) ++
        (b!"</" ++ (tag.name ++ (gap ++ (b!">" ++ y)))))))) := by
      rcases hl.2.2.2 with hk | ⟨body, rfl, _⟩
      · have := renameAll_enc (x := x ++ ((tag.rename (i = o) new).print ++ b!">"))
          (y := b!"</" ++ (tag.name ++ (gap ++ (b!">" ++ y)))) (o := o) hn (i + tag.print.length + 1) kids hk.2 (by simpa using h1)
        simpa using this
      · exact h1
    have he : (tag.rename (i = o) new).name = tag.name ∨ (tag.rename (i = o) new).name = new := by
      by_cases hi : i = o
      · exact .inr (by simp [TagText.rename, hi])
      · exact .inl (by simp [TagText.rename, hi])
    rcases he with he | he
    · rw [he]; exact hk
    · rw [he]
      have := Enc.swap (x := x ++ ((tag.rename (i = o) new).print ++ (b!">" ++ printAll (renameAll o new (i + tag.print.length + 1) kids))))
        (w := b!"</") (name := tag.name) (z := gap ++ (b!">" ++ y)) (by simpa using hk) (by decide) (by decide) hn
        ((headLow_ascii (spaces_ascii hl.2.1)).append (headLow_cons (b := 62) (by omega)))
      simpa using this
theorem renameAll_enc {void : List Str} {new x y : Str} {o : Nat} (hn : Enc new) (i : Nat) (items : List Item)
    (hl : AllLegal void items) (h : Enc (x ++ (printAll items ++ y))) : Enc (x ++ (printAll (renameAll o new i items) ++ y)) := by
  match items, hl with
  | [], _ => exact h
  | it :: l, hl =>
    simp only [renameAll, printAll, AllLegal, List.append_assoc] at h hl ⊢
    have h1 := Item.rename_enc (o := o) hn i it hl.1 h
    have := renameAll_enc (x := x ++ (it.rename o new i).print) (y := y) (o := o) hn (i + it.print.length) l hl.2 (by simpa using h1)
    simpa using this
end

end Html
