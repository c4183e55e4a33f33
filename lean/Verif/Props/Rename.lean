import Verif.Proof.RenameUndo
import Verif.Proof.RenameEncoded
import Verif.Props.TagServices

/-!
# Renaming keeps the structure of the document (C29)
-/

namespace Html.Props
open Html Spec

/-- C29: in a printed document, if rename returns edits then there is an element whose name is under
the cursor, and applying the edits gives the printed form of the document in which just this
element (the one that starts at its offset) has the new name; and that is also what the new
text parses to.  (The new name is legal, and is a void name iff the old one is; neither name is
`script` or `style`, the content of which is not parsed.) -/
theorem C29_rename_keeps_structure (u : Uni) (cs : Bool) (void : List Str) (d : TextDoc)
    (items : List Item) (p : Pos) (new : Str) (es : List TextEdit) (roots : List Node)
    (hd : Lawful d) (hl : AllLegal void items) (htext : d.text = printAll items)
    (h : parse u cs void d.text = .ok roots) (hn : LegalName new)
    (hr : doRename d p new roots = some es) :
    ∃ n t, InForest roots n ∧ Covers n (d.offsetAt p) ∧ n.tag = some t ∧
      applyEdits d es = printAll (renameAll n.start new 0 items) ∧
      (LegalName t → (t ∈ void ↔ new ∈ void) →
        ∀ roots', parse u cs void (applyEdits d es) = .ok roots' →
          roots' = nodesAll 0 (renameAll n.start new 0 items)) := by
  obtain ⟨n, t, h1, h2, h3, _, rfl⟩ := (C28_edits_iff u cs void d roots p new es h).1 hr
  have hroots : roots = nodesAll 0 items := by
    rw [htext] at h; exact parse_print hl h
  have hn1 := h1
  rw [hroots] at hn1
  have hap := apply_rename (new := new) hd htext hl hn1 h3
  refine ⟨n, t, h1, h2, h3, hap, fun hlt hv roots' h' => ?_⟩
  rw [hap] at h'
  refine parse_print (items_legal hn items hl fun m t' hm hs ht' => ?_) h'
  have : m = n := by
    have hf := (parse_done h h1).lt
    rw [← hroots] at hm
    exact start_unique h hm h1 hs
  subst this
  rw [h3] at ht'
  cases ht'
  exact ⟨hlt, hv⟩

/-- C29, with success: if the document is UTF-8 then the new text is, and it is parsed. -/
theorem C29_utf8 (u : Uni) (cs : Bool) (void : List Str) (d : TextDoc) (cps : List Nat)
    (items : List Item) (p : Pos) (new : Str) (es : List TextEdit) (roots : List Node)
    (hd : Lawful d) (hl : AllLegal void items) (htext : d.text = printAll items) (hu : Utf8 cps d.text)
    (h : parse u cs void d.text = .ok roots) (hn : LegalName new)
    (hr : doRename d p new roots = some es) :
    ∃ n t, InForest roots n ∧ Covers n (d.offsetAt p) ∧ n.tag = some t ∧ (∃ cps', Utf8 cps' (applyEdits d es)) ∧
      (LegalName t → (t ∈ void ↔ new ∈ void) →
        parse u cs void (applyEdits d es) = .ok (nodesAll 0 (renameAll n.start new 0 items))) := by
  obtain ⟨n, t, h1, h2, h3, h4, h5⟩ :=
    C29_rename_keeps_structure u cs void d items p new es roots hd hl htext h hn hr
  have he := renameAll_enc (x := []) (y := []) (o := n.start) (.ascii hn.ascii) 0 items hl
    (by rw [List.append_nil, ← htext]; exact ⟨cps, hu⟩)
  simp only [List.nil_append, List.append_nil] at he
  refine ⟨n, t, h1, h2, h3, by rw [h4]; exact he, fun hlt hv => ?_⟩
  have hroots : roots = nodesAll 0 items := by
    rw [htext] at h; exact parse_print hl h
  have hl' := items_legal (o := n.start) hn items hl (i := 0) fun m t' hm hs ht' => by
    rw [← hroots] at hm
    have : m = n := start_unique h hm h1 hs
    subst this
    rw [h3] at ht'
    cases ht'
    exact ⟨hlt, hv⟩
  obtain ⟨cps', hu'⟩ := he
  obtain ⟨roots', h'⟩ := parse_print_ok (u := u) (cs := cs) hl' hu'
  rw [h4, h', parse_print hl' h']

/-- C29: renaming can be undone.  In the text that a rename gives, with the cursor anywhere on the new
name in the start tag, renaming to the old name offers edits, and they restore the text. -/
theorem C29_undo (u : Uni) (cs : Bool) (void : List Str) (d : TextDoc)
    (items : List Item) (p : Pos) (new : Str) (es : List TextEdit) (roots : List Node)
    (hd : Lawful d) (hl : AllLegal void items) (htext : d.text = printAll items)
    (h : parse u cs void d.text = .ok roots) (hn : LegalName new)
    (hr : doRename d p new roots = some es) :
    ∃ n t, InForest roots n ∧ Covers n (d.offsetAt p) ∧ n.tag = some t ∧
      (LegalName t → (t ∈ void ↔ new ∈ void) →
        ∀ (d' : TextDoc) (roots' : List Node) (p' : Pos), Lawful d' → d'.text = applyEdits d es →
          parse u cs void d'.text = .ok roots' →
          n.start + 1 ≤ d'.offsetAt p' → d'.offsetAt p' ≤ n.start + 1 + new.length →
          ∃ es', doRename d' p' t roots' = some es' ∧ applyEdits d' es' = d.text) := by
  obtain ⟨n, t, h1, h2, h3, _, rfl⟩ := (C28_edits_iff u cs void d roots p new es h).1 hr
  have hroots : roots = nodesAll 0 items := by
    rw [htext] at h; exact parse_print hl h
  have hn1 := h1
  rw [hroots] at hn1
  refine ⟨n, t, h1, h2, h3, fun hlt hv d' roots' p' hd' htext' h' hp1 hp2 => ?_⟩
  rw [apply_rename (new := new) hd htext hl hn1 h3] at htext'
  have hl' : AllLegal void (renameAll n.start new 0 items) := by
    refine items_legal hn items hl fun m t' hm hs ht' => ?_
    rw [← hroots] at hm
    have := start_unique h hm h1 hs
    subst this
    rw [h3] at ht'; cases ht'
    exact ⟨hlt, hv⟩
  have hroots' : roots' = nodesAll 0 (renameAll n.start new 0 items) := by
    rw [htext'] at h'; exact parse_print hl' h'
  obtain ⟨n', g1, g2, g3, s, g4⟩ := items_renamed (new := new) items hn1
  have g1' := g1
  rw [← hroots'] at g1'
  have hlen := nameLen_before_close h' g1' g4
  have hstop := ((C14_offsets_point_at_brackets u cs void _ roots' n' h' g1').2.1 s g4).2.1
  simp only [nameLen, g3, Option.getD_some] at hlen
  refine ⟨_, (C28_edits_iff u cs void d' roots' p' t _ h').2 ⟨n', new, g1', ?_, g3, .inl ?_, rfl⟩, ?_⟩
  · unfold Covers; omega
  · unfold OnName; omega
  · rw [apply_rename (new := t) hd' htext' hl' g1 g3, g2, items_undo h3 items hn1, htext]

example : returns (parse exUni false [b!"br"] (printAll exItems)) (fun roots =>
    (doRename (.ref (printAll exItems)) ⟨0, 2⟩ b!"main" roots).map (applyEdits (.ref (printAll exItems))) =
      some (printAll (renameAll 0 b!"main" 0 exItems)) &&
    decide (printAll (renameAll 0 b!"main" 0 exItems) ≠ printAll exItems)) = true := by decide +kernel

end Html.Props
