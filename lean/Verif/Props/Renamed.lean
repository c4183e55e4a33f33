import Verif.Proof.RenamedPanics
import Verif.Props.Insert
import Verif.Props.Retag

/-! # Renaming an element in any document (C86) -/

namespace Html.Props
open Html Html.Spec

/-- C86: an element with an end tag gets another name, in its start tag and in its end tag.  If no start tag and no end
tag between the two has the new name, then the element has the new name in the tree, offsets move by the differences of
the lengths of the names, and nothing else changes.  (The start tag is written legally, neither name is `script`, `style`
or a void one; what is around the tags and between them is arbitrary.) -/
theorem C86_end_tag (u : Uni) (cs : Bool) (void : List Str) (pre m old new gap rest : Str) (tag : TagText)
    (roots roots' : List Node) (n : Node)
    (hpre : EndsInContent u cs pre) (hn : LegalName tag.name) (hn' : LegalName new) (hl : tag.Legal)
    (hv : tag.name ∉ void) (hv' : new ∉ void) (hm : EndsInContent u cs m) (hf : NameFree u cs m new)
    (ho : TagName old) (hg : Spaces gap)
    (h : parse u cs void (pre ++ tag.print ++ b!">" ++ m ++ b!"</" ++ old ++ gap ++ b!">" ++ rest) = .ok roots)
    (h' : parse u cs void (pre ++ ({ tag with name := new } : TagText).print ++ b!">" ++ m ++ b!"</" ++ new ++ gap ++ b!">" ++ rest) =
      .ok roots')
    (hin : InForest roots n) (hs : n.start = pre.length)
    (he : n.endTagStart = some (pre.length + tag.print.length + 1 + m.length)) :
    roots' = renamedAll pre.length new
      (movedBoth pre.length (pre.length + tag.print.length + 1 + m.length) tag.name.length old.length new.length) roots :=
  parse_renamed hpre hn hn' hl hv hv' hm hf ho hg h h' hin hs he

/-- C86: the same for an element that is never closed; no tag behind it has the new name. -/
theorem C86_unclosed (u : Uni) (cs : Bool) (void : List Str) (pre new rest : Str) (tag : TagText)
    (roots roots' : List Node) (n : Node)
    (hpre : EndsInContent u cs pre) (hn : LegalName tag.name) (hn' : LegalName new) (hl : tag.Legal)
    (hv : tag.name ∉ void) (hv' : new ∉ void) (hf : NameFree u cs rest new)
    (h : parse u cs void (pre ++ tag.print ++ b!">" ++ rest) = .ok roots)
    (h' : parse u cs void (pre ++ ({ tag with name := new } : TagText).print ++ b!">" ++ rest) = .ok roots')
    (hin : InForest roots n) (hs : n.start = pre.length) (he : n.closed = false) :
    roots' = renamedAll pre.length new (moved pre.length tag.name.length new.length) roots :=
  parse_renamed_open hpre hn hn' hl hv hv' hf h h' hin hs he

/-- C86: the same for an element that is only a start tag: a void one, or one that ends with `/>`.  Other tags may have the
new name. -/
theorem C86_only_start_tag (u : Uni) (cs : Bool) (void : List Str) (pre new w rest : Str) (tag : TagText)
    (roots roots' : List Node)
    (hpre : EndsInContent u cs pre) (hn : LegalName tag.name) (hn' : LegalName new) (hl : tag.Legal)
    (hw : (w = b!">" ∧ tag.name ∈ void ∧ new ∈ void) ∨ (w = b!"/>" ∧ SlashFree tag))
    (h : parse u cs void (pre ++ tag.print ++ w ++ rest) = .ok roots)
    (h' : parse u cs void (pre ++ ({ tag with name := new } : TagText).print ++ w ++ rest) = .ok roots') :
    roots' = renamedAll pre.length new (moved pre.length tag.name.length new.length) roots :=
  parse_renamed_tag hpre hn hn' hl hw h h'

/-- C86: so with the cursor on the name of the element, in the start tag or in the end tag, rename offers edits, and what
they give (from a UTF-8 document) parses to the tree in which this element has the new name, and nothing else has changed. -/
theorem C86_rename (u : Uni) (cs : Bool) (void : List Str) (d : TextDoc) (p : Pos) (pre m old new gap rest : Str) (tag : TagText)
    (cps : List Nat) (roots : List Node) (n : Node) (hd : Lawful d)
    (hpre : EndsInContent u cs pre) (hn : LegalName tag.name) (hn' : LegalName new) (hl : tag.Legal)
    (hv : tag.name ∉ void) (hv' : new ∉ void) (hm : EndsInContent u cs m) (hf : NameFree u cs m new)
    (ho : TagName old) (hg : Spaces gap)
    (ht : d.text = pre ++ tag.print ++ b!">" ++ m ++ b!"</" ++ old ++ gap ++ b!">" ++ rest)
    (hu : Utf8 cps d.text) (h : parse u cs void d.text = .ok roots)
    (hin : InForest roots n) (hs : n.start = pre.length)
    (he : n.endTagStart = some (pre.length + tag.print.length + 1 + m.length))
    (hp : OnName (pre.length + 1) tag.name.length (d.offsetAt p) ∨
      OnName (pre.length + tag.print.length + 1 + m.length + 2) tag.name.length (d.offsetAt p)) :
    ∃ es, doRename d p new roots = some es ∧ parse u cs void (applyEdits d es) = .ok
      (renamedAll pre.length new (movedBoth pre.length (pre.length + tag.print.length + 1 + m.length)
        tag.name.length tag.name.length new.length) roots) := by
  obtain ⟨hlen, es, h1, h2⟩ := rename_both (N := new) hd hn.1 hl ho hg ht h hin hs he hp
  refine ⟨es, h1, ?_⟩
  rw [h2]
  rw [ht] at h hu
  obtain ⟨roots', h'⟩ := both_ok hpre hn hn' hl hm ho hg hu h hin hs he
  have := parse_renamed hpre hn hn' hl hv hv' hm hf ho hg h h' hin hs he
  rw [hlen] at this
  rw [h', this]

/-- C86: the same for an element without an end tag. -/
theorem C86_rename_one (u : Uni) (cs : Bool) (void : List Str) (d : TextDoc) (p : Pos) (pre new w rest : Str) (tag : TagText)
    (cps : List Nat) (roots : List Node) (n : Node) (hd : Lawful d)
    (hpre : EndsInContent u cs pre) (hn : LegalName tag.name) (hn' : LegalName new) (hl : tag.Legal)
    (ht : d.text = pre ++ tag.print ++ w ++ rest)
    (hu : Utf8 cps d.text) (h : parse u cs void d.text = .ok roots)
    (hin : InForest roots n) (hs : n.start = pre.length) (he : n.endTagStart = none)
    (hw : (w = b!">" ∧ tag.name ∈ void ∧ new ∈ void) ∨ (w = b!"/>" ∧ SlashFree tag) ∨
      (w = b!">" ∧ tag.name ∉ void ∧ new ∉ void ∧ n.closed = false ∧ NameFree u cs rest new))
    (hp : OnName (pre.length + 1) tag.name.length (d.offsetAt p)) :
    ∃ es, doRename d p new roots = some es ∧ parse u cs void (applyEdits d es) = .ok
      (renamedAll pre.length new (moved pre.length tag.name.length new.length) roots) := by
  obtain ⟨es, h1, h2⟩ := rename_one (N := new) hd hn.1 hl
    (hw.elim (fun h => .inl h.1) fun h => h.elim (fun h => .inr h.1) fun h => .inl h.1) ht h hin hs he hp
  refine ⟨es, h1, ?_⟩
  rw [h2]
  rw [ht] at h hu
  obtain ⟨roots', h'⟩ := one_ok hpre hn hn' hl
    (hw.elim (fun h => .inl h.1) fun h => h.elim .inr fun h => .inl h.1) hu h
  rw [h']
  refine congrArg _ ?_
  rcases hw with hw | hw | ⟨rfl, hv, hv', hc, hf⟩
  · exact parse_renamed_tag hpre hn hn' hl (.inl hw) h h'
  · exact parse_renamed_tag hpre hn hn' hl (.inr hw) h h'
  · exact parse_renamed_open hpre hn hn' hl hv hv' hf h h' hin hs hc

/-- C86: renaming can be undone: in the text that the rename gives, with the cursor on the new name in either tag, renaming to
the old name offers edits that restore the text (if the end tag has the name exactly as it is in the start tag). -/
theorem C86_undo (u : Uni) (cs : Bool) (void : List Str) (d : TextDoc) (p : Pos) (pre m new gap rest : Str) (tag : TagText)
    (roots : List Node) (n : Node) (hd : Lawful d)
    (hpre : EndsInContent u cs pre) (hn : LegalName tag.name) (hn' : LegalName new) (hl : tag.Legal)
    (hv : tag.name ∉ void) (hv' : new ∉ void) (hm : EndsInContent u cs m) (hf : NameFree u cs m new)
    (hg : Spaces gap)
    (ht : d.text = pre ++ tag.print ++ b!">" ++ m ++ b!"</" ++ tag.name ++ gap ++ b!">" ++ rest)
    (h : parse u cs void d.text = .ok roots)
    (hin : InForest roots n) (hs : n.start = pre.length)
    (he : n.endTagStart = some (pre.length + tag.print.length + 1 + m.length))
    (hp : OnName (pre.length + 1) tag.name.length (d.offsetAt p) ∨
      OnName (pre.length + tag.print.length + 1 + m.length + 2) tag.name.length (d.offsetAt p)) :
    ∃ es, doRename d p new roots = some es ∧ ∀ (d' : TextDoc) (roots' : List Node) (p' : Pos), Lawful d' →
      d'.text = applyEdits d es → parse u cs void d'.text = .ok roots' →
      (OnName (pre.length + 1) new.length (d'.offsetAt p') ∨
        OnName (pre.length + tag.print.length + new.length - tag.name.length + 1 + m.length + 2) new.length (d'.offsetAt p')) →
      ∃ es', doRename d' p' tag.name roots' = some es' ∧ applyEdits d' es' = d.text := by
  obtain ⟨_, es, h1, h2⟩ := rename_both (N := new) hd hn.1 hl hn.1 hg ht h hin hs he hp
  refine ⟨es, h1, fun d' roots' p' hd' ht' h' hp' => ?_⟩
  rw [h2] at ht'
  have h0 := h'
  rw [ht'] at h0
  rw [ht] at h
  have hr := parse_renamed hpre hn hn' hl hv hv' hm hf hn.1 hg h h0 hin hs he
  have hpl := print_length tag new
  have hin' := renamed_mem (N := new) (P := pre.length) (μ := movedBoth pre.length (pre.length + tag.print.length + 1 + m.length)
    tag.name.length tag.name.length new.length) hin
  rw [← hr] at hin'
  have hlen : pre.length + tag.print.length + new.length - tag.name.length =
      pre.length + ({ tag with name := new } : TagText).print.length := by omega
  rw [hlen] at hp'
  obtain ⟨_, es', g1, g2⟩ := rename_both (N := tag.name) (tag := { tag with name := new }) hd' hn'.1 hl hn'.1 hg ht' h' hin'
    (by rw [renamed_eq]; simp only [hs]; unfold movedBoth; rw [if_pos (Nat.le_refl _)])
    (by
      rw [renamed_eq]
      simp only [he, Option.map_some]
      unfold movedBoth
      rw [if_neg (by omega), if_pos (Nat.le_refl _)]
      congr 1
      omega) hp'
  exact ⟨es', g1, by rw [g2, ht]⟩

/-- The text `<b></b>c` between the tags of the examples. -/
theorem exBetween (u : Uni) (cs : Bool) : EndsInContent u cs b!"<b></b>c" ∧ NameFree u cs b!"<b></b>c" b!"div" := by
  refine ⟨⟨b!"<b></b>", b!"c", by decide, by decide, .inr ⟨[⟨.StartTagOpen, 0, 1, none, .AfterOpeningStartTag⟩,
      ⟨.StartTag, 1, 2, none, .WithinTag⟩, ⟨.StartTagClose, 2, 3, none, .WithinContent⟩,
      ⟨.EndTagOpen, 3, 5, none, .AfterOpeningEndTag⟩, ⟨.EndTag, 5, 6, none, .WithinEndTag⟩],
    ⟨.EndTagClose, 6, 7, none, .WithinContent⟩,
    ⟨⟨[60, 98, 62, 60, 47, 98, 62], by decide, rfl⟩, by cases cs <;> krfl, by decide, by decide⟩, rfl⟩⟩,
    [⟨.StartTagOpen, 0, 1, none, .AfterOpeningStartTag⟩,
      ⟨.StartTag, 1, 2, none, .WithinTag⟩, ⟨.StartTagClose, 2, 3, none, .WithinContent⟩,
      ⟨.EndTagOpen, 3, 5, none, .AfterOpeningEndTag⟩, ⟨.EndTag, 5, 6, none, .WithinEndTag⟩,
      ⟨.EndTagClose, 6, 7, none, .WithinContent⟩, ⟨.Content, 7, 8, none, .WithinContent⟩], by cases cs <;> krfl, ?_⟩
  intro t ht hty
  simp only [List.mem_cons, List.not_mem_nil, or_false] at ht
  rcases ht with rfl | rfl | rfl | rfl | rfl | rfl | rfl <;> rcases hty with hty | hty <;>
    first
    | cases hty; done
    | cases cs <;> simp [SameName, toLower, bytesIn, lowerByte]

/-- The hypotheses are met: in `<p><i></i>a<b x=1><b></b>c</b ></p>` the outer `b` is renamed to `div`. -/
example (u : Uni) (cs : Bool) : ∃ n, (parse u cs [] (b!"<p><i></i>a" ++ b!"<b x=1" ++ b!">" ++ b!"<b></b>c" ++ b!"</" ++ b!"b" ++
      b!" " ++ b!">" ++ b!"</p>")) = .ok [⟨some b!"p", 0, 35, [⟨some b!"i", 3, 10, [], true, some 6, some 6, []⟩, n], true, some 3,
        some 31, []⟩] ∧ n.start = 11 ∧ n.endTagStart = some 26 ∧
    renamed 11 b!"div" (movedBoth 11 26 1 1 3) n = ⟨some b!"div", 11, 35, [⟨some b!"b", 20, 27, [], true, some 23, some 23, []⟩],
      true, some 20, some 28, [(b!"x", ⟨some b!"1", 16⟩)]⟩ := by
  refine ⟨⟨some b!"b", 11, 31, [⟨some b!"b", 18, 25, [], true, some 21, some 21, []⟩], true, some 18, some 26,
    [(b!"x", ⟨some b!"1", 14⟩)]⟩, by cases cs <;> krfl, rfl, rfl, by krfl⟩

example (u : Uni) (cs : Bool) : EndsInContent u cs b!"<p><i></i>a" ∧ EndsInContent u cs b!"<b></b>c" ∧
    NameFree u cs b!"<b></b>c" b!"div" ∧ (TagText.mk b!"b" [⟨b!" ", b!"x", some b!"1"⟩] []).Legal := by
  refine ⟨exEndsInContent u cs, (exBetween u cs).1, (exBetween u cs).2, ⟨?_, by decide⟩, by decide⟩
  intro a ha
  simp only [List.mem_singleton] at ha
  subst ha
  refine ⟨by decide, by decide, by simp only [AttributeName]; decide, by decide, fun w hw => .inr (.inl ?_)⟩
  cases hw
  exact ⟨by decide, by decide⟩

/-- C86: the new name must not be that of a tag in between.  In `<a><b></a>` the `a` is renamed to `b`; then the end tag
closes the inner `b`, and the renamed element is not closed. -/
theorem C86_needs_fresh_name (u : Uni) (cs : Bool) :
    (parse u cs [] b!"<a><b></a>" >>= fun roots => .ok (roots, (doRename (.ref b!"<a><b></a>") ⟨0, 1⟩ b!"b" roots).map
      (applyEdits (.ref b!"<a><b></a>")))) =
      .ok ([⟨some b!"a", 0, 10, [⟨some b!"b", 3, 6, [], false, some 6, none, []⟩], true, some 3, some 6, []⟩],
        some b!"<b><b></b>") ∧
    parse u cs [] b!"<b><b></b>" =
      .ok [⟨some b!"b", 0, 10, [⟨some b!"b", 3, 10, [], true, some 6, some 6, []⟩], false, some 3, none, []⟩] := by
  constructor <;> cases cs <;> krfl

end Html.Props
