import Verif.Proof.AcceptName
import Verif.Props.AcceptValue

/-! # Accepting a proposed attribute name: C83 -/

namespace Html.Props
open Html Spec

/-- C83: with the cursor between the attributes of a start tag, or in the name of one, every attribute that an enabled
provider knows for this element and that the other attributes do not have is proposed.  Accepting it writes its name at
the place, instead of the name that was there.  If no value follows, then `=` and the quotes that are set are added
(not if the attribute has no values).  Nothing else of the text changes. -/
theorem C83_accept (e : CompEnv) (void : List Str) (d : TextDoc) (position : Pos) (o : Nat) (roots : List Node)
    (r : List CompItem) (pre w y : Str) (v : Option Str) (tag : TagSlot) (a : AttributeData) (hd : Lawful d)
    (hpre : EndsInContent e.uni e.caseSensitive pre) (hn : LegalName tag.name) (hl : tag.Legal)
    (ht : d.text = pre ++ tag.text w v ++ (b!">" ++ y))
    (h : parse e.uni e.caseSensitive void d.text = .ok roots) (ho : d.offsetAt position = o)
    (hc : tag.Cursor (pre.length + tag.front.length) o w v) (hr : doComplete e d position roots = .ok r)
    (ha : Offers e (some tag.name) o a) (hna : a.name ∉ tag.names) :
    ∃ i ∈ r, i.label = a.name ∧ ∃ te a', i.textEdit = some te ∧ Offers e (some tag.name) o a' ∧ a'.name = a.name ∧
      applyEdits d [te] = pre ++ tag.text (a.name ++ if v = none then addedText e a' else []) v ++ (b!">" ++ y) :=
  accept_name hd hpre hn hl ht h ho hc hr ha hna

/-- C83: whatever is proposed there, accepting it writes the name that is shown at the place, and something behind
it, instead of the name that was there, and nothing else of the text changes.  No name of another attribute of the
element is proposed (except for `data-`). -/
theorem C83_every_proposal (e : CompEnv) (void : List Str) (d : TextDoc) (position : Pos) (o : Nat) (roots : List Node)
    (r : List CompItem) (pre w y : Str) (v : Option Str) (tag : TagSlot) (i : CompItem) (hd : Lawful d)
    (hpre : EndsInContent e.uni e.caseSensitive pre) (hn : LegalName tag.name) (hl : tag.Legal)
    (ht : d.text = pre ++ tag.text w v ++ (b!">" ++ y))
    (h : parse e.uni e.caseSensitive void d.text = .ok roots) (ho : d.offsetAt position = o)
    (hc : tag.Cursor (pre.length + tag.front.length) o w v) (hr : doComplete e d position roots = .ok r) (hi : i ∈ r) :
    (i.label = b!"data-" ∨ i.label ∉ tag.names) ∧
      ∃ te s, i.textEdit = some te ∧ applyEdits d [te] = pre ++ tag.text (i.label ++ s) v ++ (b!">" ++ y) :=
  every_name hd hpre hn hl ht h ho hc hr hi

/-- C83: a UTF-8 text with another attribute at the place is parsed exactly if the text without it is; then the element has
the attribute, what is behind it moves, and nothing else changes. -/
theorem C83_new_document (u : Uni) (cs : Bool) (void : List Str) (pre w k y : Str) (v v' : Option Str) (tag : TagSlot)
    (cps cps' : List Nat) (hpre : EndsInContent u cs pre) (hn : LegalName tag.name) (hl : tag.Legal)
    (hw : w = [] ∧ v = none ∨ AttributeName w ∧ isAscii w ∧ w ∉ tag.names ∧ ∀ x, v = some x → ValueText x)
    (hk : AttributeName k ∧ isAscii k ∧ k ∉ tag.names ∧ ∀ x, v' = some x → ValueText x)
    (h : Utf8 cps (pre ++ tag.text w v ++ (b!">" ++ y))) (h' : Utf8 cps' (pre ++ tag.text k v' ++ (b!">" ++ y))) :
    parse u cs void (pre ++ tag.text k v' ++ (b!">" ++ y)) = (parse u cs void (pre ++ tag.text w v ++ (b!">" ++ y))).map
      (retagAll pre.length (tag.text w v).length (tag.text k v').length ((tag.fill k v').nodes pre.length)) := by
  have hl' := TagSlot.fill_legal hl hk.1 hk.2.1 hk.2.2.1 hk.2.2.2
  have e' : tag.text k v' = (tag.fill k v').print := (TagSlot.print_fill tag k v').symm
  rw [e'] at h' ⊢
  rcases hw with ⟨rfl, rfl⟩ | ⟨w1, w2, w3, w4⟩
  · have e : tag.text [] none = tag.empty.print := by
      rw [TagSlot.print_empty]; simp [TagSlot.text, valueText]
    have hname : tag.empty.name = tag.name := by
      obtain ⟨zs, g, he⟩ := TagSlot.empty_eq tag
      rw [he]
    rw [e] at h ⊢
    exact C76_parsed u cs void pre (b!">" ++ y) tag.empty (tag.fill k v') cps cps' hpre (hname ▸ hn.1)
      (TagSlot.empty_legal hl) hl' hname.symm (.inl (hname ▸ hn)) (.inl ⟨y, rfl⟩) h h'
  · have e : tag.text w v = (tag.fill w v).print := (TagSlot.print_fill tag w v).symm
    rw [e] at h ⊢
    exact C76_parsed u cs void pre (b!">" ++ y) (tag.fill w v) (tag.fill k v') cps cps' hpre hn.1
      (TagSlot.fill_legal hl w1 w2 w3 w4) hl' rfl (.inl hn) (.inl ⟨y, rfl⟩) h h'

/-- The hypotheses are met by `<p id >` with the cursor in front of `>`, and by `<p id cl='a'>` with the cursor in
`cl`. -/
def exSlot : TagSlot := ⟨b!"p", [⟨b!" ", b!"id", none⟩], b!" ", [], []⟩

example : exSlot.text [] none ++ b!">" = b!"<p id >" ∧ exSlot.text b!"cl" (some b!"'a'") ++ b!">" = b!"<p id cl='a'>" ∧
    exSlot.front.length = 6 := by decide

example : exSlot.Legal ∧ LegalName exSlot.name := by
  refine ⟨⟨⟨?_, by decide⟩, by decide, by decide, by decide⟩,
    ⟨⟨⟨112, [], rfl, by unfold NameStartByte; decide⟩, by unfold NameByte; decide⟩, by decide, by decide⟩⟩
  intro a ha
  simp only [exSlot, List.append_nil, List.mem_singleton] at ha
  subst ha
  exact ⟨by decide, by decide, by simp only [AttributeName]; decide, by decide, by simp⟩

example : exSlot.Cursor 6 6 [] none ∧ exSlot.Cursor 6 7 b!"cl" (some b!"'a'") := by
  refine ⟨.inl ⟨rfl, rfl, rfl⟩, .inr ⟨by simp only [AttributeName]; decide, by decide, by decide, ?_, by decide, by decide⟩⟩
  rintro v ⟨⟩
  exact .inl ⟨39, b!"a", .inr rfl, by decide, rfl⟩

example (u : Uni) (cs : Bool) :
    (parse u cs [] b!"<p id >" >>= fun roots => doComplete (exNamesEnv u cs) (TextDoc.ref b!"<p id >") ⟨0, 6⟩ roots).map edits =
      .ok [(b!"class", some ⟨⟨⟨0, 6⟩, ⟨0, 6⟩⟩, b!"class=\"$1\""⟩), (b!"hidden", some ⟨⟨⟨0, 6⟩, ⟨0, 6⟩⟩, b!"hidden"⟩),
        (b!"data-", some ⟨⟨⟨0, 6⟩, ⟨0, 6⟩⟩, b!"data-$1=\"$2\""⟩)] ∧
    applyEdits (TextDoc.ref b!"<p id >") [⟨⟨⟨0, 6⟩, ⟨0, 6⟩⟩, b!"class=\"$1\""⟩] = b!"<p id class=\"$1\">" := by
  refine ⟨by cases cs <;> krfl, by krfl⟩

/-- A value that is there stays. -/
example (u : Uni) (cs : Bool) :
    (parse u cs [] b!"<p id cl='a'>" >>= fun roots => doComplete (exNamesEnv u cs) (TextDoc.ref b!"<p id cl='a'>") ⟨0, 7⟩ roots).map edits =
      .ok [(b!"class", some ⟨⟨⟨0, 6⟩, ⟨0, 8⟩⟩, b!"class"⟩), (b!"hidden", some ⟨⟨⟨0, 6⟩, ⟨0, 8⟩⟩, b!"hidden"⟩),
        (b!"data-", some ⟨⟨⟨0, 6⟩, ⟨0, 8⟩⟩, b!"data-$1=\"$2\""⟩)] ∧
    applyEdits (TextDoc.ref b!"<p id cl='a'>") [⟨⟨⟨0, 6⟩, ⟨0, 8⟩⟩, b!"class"⟩] = b!"<p id class='a'>" := by
  refine ⟨by cases cs <;> krfl, by krfl⟩

/-- The proposals that begin with `data-` add a value even if there is one: accepting `data-` in the name `cl` leaves
two values. -/
theorem C83_data_second_value (u : Uni) (cs : Bool) :
    (∃ roots r i te, parse u cs [] b!"<p cl='a'>" = .ok roots ∧
      doComplete (exNamesEnv u cs) (TextDoc.ref b!"<p cl='a'>") ⟨0, 4⟩ roots = .ok r ∧ i ∈ r ∧ i.label = b!"data-" ∧
      i.textEdit = some te ∧ applyEdits (TextDoc.ref b!"<p cl='a'>") [te] = b!"<p data-$1=\"$2\"='a'>") := by
  have h : (parse u cs [] b!"<p cl='a'>" >>= fun roots =>
      doComplete (exNamesEnv u cs) (TextDoc.ref b!"<p cl='a'>") ⟨0, 4⟩ roots).map edits =
      .ok [(b!"class", some ⟨⟨⟨0, 3⟩, ⟨0, 5⟩⟩, b!"class"⟩), (b!"id", some ⟨⟨⟨0, 3⟩, ⟨0, 5⟩⟩, b!"id"⟩),
        (b!"hidden", some ⟨⟨⟨0, 3⟩, ⟨0, 5⟩⟩, b!"hidden"⟩), (b!"data-", some ⟨⟨⟨0, 3⟩, ⟨0, 5⟩⟩, b!"data-$1=\"$2\""⟩)] := by
    cases cs <;> krfl
  cases hp : parse u cs [] b!"<p cl='a'>" with
  | error p => rw [hp] at h; cases h
  | ok roots =>
    rw [hp] at h
    have h : (doComplete (exNamesEnv u cs) (TextDoc.ref b!"<p cl='a'>") ⟨0, 4⟩ roots).map edits = _ := h
    cases hr : doComplete (exNamesEnv u cs) (TextDoc.ref b!"<p cl='a'>") ⟨0, 4⟩ roots with
    | error p => rw [hr] at h; cases h
    | ok r =>
      rw [hr] at h
      have h : edits r = _ := Except.ok.inj h
      obtain ⟨i, i1, i2, i3⟩ := mem_edits (l := r) (x := b!"data-") (te := some ⟨⟨⟨0, 3⟩, ⟨0, 5⟩⟩, b!"data-$1=\"$2\""⟩)
        (by rw [h]; simp)
      exact ⟨roots, r, i, _, rfl, hr, i1, i2, i3, by krfl⟩

end Html.Props
