import Verif.Proof.AcceptTag
import Verif.Proof.OtherName
import Verif.Props.Cut

/-! # Accepting a proposed element: C82 -/

namespace Html.Props
open Html Spec

/-- C82: with the cursor behind a `<` that begins a start tag, or in or behind the name `w` of the tag, every element that
an enabled provider knows is proposed.  Accepting it replaces the name by this one, and nothing else of the text. -/
theorem C82_accept (e : CompEnv) (void : List Str) (d : TextDoc) (cps : List Nat) (position : Pos) (o : Nat) (roots : List Node)
    (r : List CompItem) (a w y : Str) (k : TagData) (hu : Utf8 cps d.text) (hd : Lawful d)
    (ha : EndsInContent e.uni e.caseSensitive a) (hw : BeginsTag w y) (ht : d.text = a ++ b!"<" ++ w ++ y)
    (h : parse e.uni e.caseSensitive void d.text = .ok roots) (ho : d.offsetAt position = o)
    (h1 : a.length < o) (h2 : o ≤ a.length + 1 + w.length) (hr : doComplete e d position roots = .ok r)
    (hk : k ∈ knownTags e) :
    ∃ i ∈ r, i.label = k.name ∧ ∃ te, i.textEdit = some te ∧ applyEdits d [te] = a ++ b!"<" ++ k.name ++ y := by
  obtain ⟨i, h3, h4, te, h5, h6⟩ := accept_tag hu hd ha hw (by rw [ht]; simp) h ho h1 h2 hr hk
  exact ⟨i, h3, h4, te, h5, by rw [h6]; simp⟩

/-- C82: in the document of the new text there is an element with the proposed name, which begins at this `<`, and
everything in front of it is as it was. -/
theorem C82_new_document (u : Uni) (cs : Bool) (void : List Str) (a w name y : Str) (roots roots' : List Node)
    (ha : EndsInContent u cs a) (hn : TagName name) (hy : NameEnds y)
    (h : parse u cs void (a ++ b!"<" ++ w ++ y) = .ok roots)
    (h' : parse u cs void (a ++ b!"<" ++ name ++ y) = .ok roots') :
    (∃ n, InForest roots' n ∧ n.start = a.length ∧ n.tag = some name) ∧
      cutAll a.length roots' = cutAll a.length roots := by
  refine ⟨named_node (void := void) (y := y) ha hn hy (by rw [← h']; simp), ?_⟩
  exact C80_edit u cs void a (b!"<" ++ w ++ y) (b!"<" ++ name ++ y) roots roots' ha (by rw [← h]; simp) (by rw [← h']; simp)

/-- C82: if the old and the new name are both not `script` or `style`, the new text is parsed whenever the old one was, so
what `C82_new_document` says about its document holds without further conditions. -/
theorem C82_new_text_parsed (u : Uni) (cs : Bool) (void : List Str) (a w name y : Str) (cps : List Nat) (roots : List Node)
    (hu : Utf8 cps (a ++ b!"<" ++ w ++ y)) (ha : EndsInContent u cs a) (hw : LegalName w) (hn : LegalName name) (hy : NameEnds y)
    (h : parse u cs void (a ++ b!"<" ++ w ++ y) = .ok roots) :
    ∃ roots', parse u cs void (a ++ b!"<" ++ name ++ y) = .ok roots' ∧
      (∃ n, InForest roots' n ∧ n.start = a.length ∧ n.tag = some name) ∧
      cutAll a.length roots' = cutAll a.length roots := by
  have e : ∀ x : Str, a ++ b!"<" ++ x ++ y = a ++ 60 :: (x ++ y) := fun x => by simp
  have h1 := other_parsed (void := void) ha hw hn hy ⟨cps, by rw [← e]; exact hu⟩
  rw [← e, ← e, h] at h1
  cases h' : parse u cs void (a ++ b!"<" ++ name ++ y) with
  | error x => rw [h'] at h1; simp at h1
  | ok roots' => exact ⟨roots', rfl, C82_new_document u cs void a w name y roots roots' ha hn.1 hy h h'⟩

/-- C82: and the new text is not parsed if the old one was not. -/
theorem C82_new_text_not_parsed (u : Uni) (cs : Bool) (void : List Str) (a w name y : Str) (cps : List Nat) (x : Panic)
    (hu : Utf8 cps (a ++ b!"<" ++ w ++ y)) (ha : EndsInContent u cs a) (hw : LegalName w) (hn : LegalName name) (hy : NameEnds y)
    (h : parse u cs void (a ++ b!"<" ++ w ++ y) = .error x) :
    ∃ x', parse u cs void (a ++ b!"<" ++ name ++ y) = .error x' := by
  have e : ∀ x : Str, a ++ b!"<" ++ x ++ y = a ++ 60 :: (x ++ y) := fun x => by simp
  rw [e] at h hu ⊢
  exact (other_parsed (void := void) ha hw hn hy ⟨cps, hu⟩).2 ⟨x, h⟩

/-- C82: this is not so for a `<` without a name: what was the name behind the white space becomes an attribute, and the
parser panics if this attribute is `type`, with a quoted value that is not closed and ends in a character outside of ASCII. -/
theorem C82_nameless_limit (u : Uni) (cs : Bool) :
    (∃ roots, parse u cs [] b!"< type=\"é" = .ok roots) ∧ parse u cs [] b!"<i type=\"é" = .error .slice := by
  refine ⟨⟨[⟨some b!"type", 0, 10, [], false, none, none, []⟩], ?_⟩, ?_⟩
  · cases cs <;> krfl
  · cases cs <;> krfl

/-- The hypotheses are met by `<p><i></i>a<i b>` with the cursor in or around the second `i`, and by a `<` without a
name. -/
example : BeginsTag b!"i" b!" b>" ∧ BeginsTag [] b!">" := by
  refine ⟨⟨?_, .inl ⟨⟨105, [], rfl, by unfold NameStartByte; decide⟩, by unfold NameByte; decide⟩⟩, ?_, .inr ⟨rfl, by decide, by decide⟩⟩
  · rintro b hb; cases hb; unfold NameByte alnum; decide
  · rintro b hb; cases hb; unfold NameByte alnum; decide

example (u : Uni) (cs : Bool) : EndsInContent u cs b!"<p><i></i>a" := exEndsInContent u cs

example : LegalName b!"i" := ⟨⟨⟨105, [], rfl, by unfold NameStartByte; decide⟩, by unfold NameByte; decide⟩, by decide, by decide⟩

example (u : Uni) (cs : Bool) :
    (knownTags (exNamesEnv u cs)).map (·.name) = [b!"p"] ∧
    (parse u cs [] b!"<u>a<i b>" >>= fun roots => doComplete (exNamesEnv u cs) (exLine b!"<u>a<i b>") ⟨0, 6⟩ roots).map edits =
      .ok [(b!"p", some ⟨⟨⟨0, 5⟩, ⟨0, 6⟩⟩, b!"p"⟩)] ∧
    applyEdits (exLine b!"<u>a<i b>") [⟨⟨⟨0, 5⟩, ⟨0, 6⟩⟩, b!"p"⟩] = b!"<u>a<p b>" := by
  refine ⟨by cases cs <;> krfl, by cases cs <;> krfl, by krfl⟩

end Html.Props
