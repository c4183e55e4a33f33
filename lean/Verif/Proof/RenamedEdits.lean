import Verif.Proof.RenamedText
import Verif.Props.TagServices

/-! # Renaming an element: the edits -/

namespace Html
open Spec Props

variable {u : Uni} {cs : Bool} {void : List Str} {N : Str}

/-- The text behind the name of a start tag. -/
theorem name_sep {tag : TagText} (hl : tag.Legal) {b : Nat} {x : Str} (hb : TagSep b) :
    ∃ z r, printAttrs tag.attrs ++ (tag.gap ++ b :: x) = z :: r ∧ TagSep z := by
  cases ha : tag.attrs with
  | nil =>
    cases hg : tag.gap with
    | nil => exact ⟨b, x, rfl, hb⟩
    | cons z g => exact ⟨z, g ++ b :: x, rfl, .inl (hl.2 z (by rw [hg]; simp))⟩
  | cons a l =>
    have h := hl.1.1 a (by rw [ha]; simp)
    obtain ⟨h2, h1, _⟩ := h
    cases hg : a.gap with
    | nil => exact absurd hg h2
    | cons z g =>
      refine ⟨z, g ++ (a.name ++ (match a.value with | none => [] | some w => b!"=" ++ w)) ++ printAttrs l ++ (tag.gap ++ b :: x), ?_,
        .inl (h1 z (by rw [hg]; simp))⟩
      simp only [printAttrs, AttrText.print, hg, List.cons_append, List.append_assoc]
      rfl

theorem name_is {src : Str} {i hi z : Nat} {nm : Option Str} {name x : Str} (h : NameIs u src i nm hi) (hn : TagName name)
    (hd : src.drop i = name ++ z :: x) (hz : TagSep z) : nm = some name := by
  obtain ⟨⟨b, r, hb, hb1⟩, _⟩ := id hn
  have hns : ∀ w : Str, Spaces w → (∃ y, src.drop i = w ++ y) → w = [] := by
    rintro w hw ⟨y, hy⟩
    cases w with
    | nil => rfl
    | cons a w =>
      rw [hd, hb] at hy
      have := hw a (by simp)
      cases (List.cons.inj hy).1
      unfold Space at this
      unfold NameStartByte alnum at hb1
      omega
  cases nm with
  | none =>
    obtain ⟨w, h1, ⟨y, h2⟩, h3, _⟩ := h.spec
    cases hns w h1 ⟨y, h2⟩
    have : src[i]? = some b := by
      have : (src.drop i)[0]? = some b := by rw [hd, hb]; rfl
      rwa [List.getElem?_drop] at this
    exact absurd hb1 (h3 b this)
  | some t =>
    obtain ⟨w, h1, ⟨y, h2⟩, _, _, h3⟩ := h.len t rfl
    cases hns w h1 ⟨t ++ y, by rw [h2]; simp⟩
    simp only [List.length_nil, Nat.add_zero, List.nil_append] at h2 h3
    rw [hd, elementNameLen_exact hn hz] at h3
    rw [hd] at h2
    have := congrArg (List.take name.length) h2
    rw [List.take_left, h3, List.take_left] at this
    rw [this]

theorem apply_one {d : TextDoc} {A C t new : Str} (hd : Lawful d) (h : d.text = A ++ (t ++ C)) (h1 : AsciiHead t) (h2 : AsciiHead C) :
    applyEdits d [⟨⟨d.posAt A.length, d.posAt (A.length + t.length)⟩, new⟩] = A ++ (new ++ C) := by
  have rt : ∀ {A C : Str} {o : Nat}, d.text = A ++ C → AsciiHead C → o = A.length → d.offsetAt (d.posAt o) = o := by
    intro A C o h hc ho
    subst ho
    refine hd.roundTrip _ (by rw [h]; simp) ?_
    rw [h]; exact boundary_at hc
  simp only [applyEdits]
  rw [rt h h1.app rfl, rt (A := A ++ t) (C := C) (by rw [h]; simp) h2 (by simp), h]
  simp [List.drop_append]

theorem apply_two {d : TextDoc} {A B C t t' new : Str} (hd : Lawful d) (h : d.text = A ++ (t ++ (B ++ (t' ++ C))))
    (hl : t'.length = t.length) (h1 : AsciiHead t) (h2 : AsciiHead B) (h3 : AsciiHead t') (h4 : AsciiHead C) :
    applyEdits d [⟨⟨d.posAt A.length, d.posAt (A.length + t.length)⟩, new⟩,
      ⟨⟨d.posAt (A ++ (t ++ B)).length, d.posAt ((A ++ (t ++ B)).length + t.length)⟩, new⟩] = A ++ (new ++ (B ++ (new ++ C))) := by
  have rt : ∀ {A C : Str} {o : Nat}, d.text = A ++ C → AsciiHead C → o = A.length → d.offsetAt (d.posAt o) = o := by
    intro A C o h hc ho
    subst ho
    refine hd.roundTrip _ (by rw [h]; simp) ?_
    rw [h]; exact boundary_at hc
  simp only [applyEdits]
  rw [rt (o := A.length) h h1.app rfl,
    rt (o := A.length + t.length) (A := A ++ t) (C := B ++ (t' ++ C)) (by rw [h]; simp) h2.app (by simp),
    rt (o := (A ++ (t ++ B)).length) (A := A ++ (t ++ B)) (C := t' ++ C) (by rw [h]; simp) h3.app rfl,
    rt (o := (A ++ (t ++ B)).length + t.length) (A := A ++ (t ++ B) ++ t') (C := C) (by rw [h]; simp) h4 (by rw [List.length_append (as := A ++ (t ++ B)), hl]), h]
  have e1 : (A ++ (t ++ (B ++ (t' ++ C)))).take (A ++ (t ++ B)).length = A ++ (t ++ B) := by
    rw [show A ++ (t ++ (B ++ (t' ++ C))) = (A ++ (t ++ B)) ++ (t' ++ C) by simp]
    exact List.take_left
  have e2 : (A ++ (t ++ (B ++ (t' ++ C)))).drop ((A ++ (t ++ B)).length + t.length) = C := by
    rw [show A ++ (t ++ (B ++ (t' ++ C))) = ((A ++ (t ++ B)) ++ t') ++ C by simp, ← hl, ← List.length_append]
    exact List.drop_left
  rw [e1, e2]
  have e3 : (A ++ (t ++ B) ++ new ++ C).take A.length = A := by
    rw [show A ++ (t ++ B) ++ new ++ C = A ++ ((t ++ B) ++ new ++ C) by simp]
    exact List.take_left
  have e4 : (A ++ (t ++ B) ++ new ++ C).drop (A.length + t.length) = B ++ (new ++ C) := by
    rw [show A ++ (t ++ B) ++ new ++ C = (A ++ t) ++ (B ++ (new ++ C)) by simp, ← List.length_append]
    exact List.drop_left
  rw [e3, e4]
  simp

theorem name_head {name : Str} (h : TagName name) : AsciiHead name := by
  obtain ⟨⟨b, r, rfl, _⟩, _⟩ := id h
  exact ⟨b, r, rfl, h.ascii b (by simp)⟩

/-- The element's end tag has its name. -/
theorem end_same {src pre m old gap rest : Str} {tag : TagText} {roots : List Node} {n : Node}
    (hn : TagName tag.name) (hl : tag.Legal) (ho : TagName old) (hg : Spaces gap)
    (ht : src = pre ++ tag.print ++ b!">" ++ m ++ b!"</" ++ old ++ gap ++ b!">" ++ rest)
    (hx : parse u cs void src = .ok roots)
    (hin : InForest roots n) (hs : n.start = pre.length)
    (hE : n.endTagStart = some (pre.length + tag.print.length + 1 + m.length)) :
    n.tag = some tag.name ∧ SameName u cs (some tag.name) (some old) ∧
      pre.length + tag.print.length + 1 + m.length + 2 + old.length < n.stop := by
  have hdone := parse_done hx hin
  obtain ⟨z, r, hz, hz2⟩ := name_sep hl (b := 62) (x := m ++ b!"</" ++ old ++ gap ++ b!">" ++ rest) (.inr (.inl rfl))
  have hdrop : src.drop (n.start + 1) = tag.name ++ z :: r := by
    rw [← hz, ht, hs]
    have : pre ++ tag.print ++ b!">" ++ m ++ b!"</" ++ old ++ gap ++ b!">" ++ rest =
        (pre ++ b!"<") ++ (tag.name ++ (printAttrs tag.attrs ++ (tag.gap ++ 62 :: (m ++ b!"</" ++ old ++ gap ++ b!">" ++ rest)))) := by
      simp [TagText.print]
    rw [this, show pre.length + 1 = (pre ++ b!"<").length by simp, List.drop_left]
  have htag : n.tag = some tag.name := name_is hdone.name hn hdrop hz2
  have hE2 : src.drop (pre.length + tag.print.length + 1 + m.length + 2) = old ++ (gap ++ 62 :: rest) := by
    have : pre ++ tag.print ++ b!">" ++ m ++ b!"</" ++ old ++ gap ++ b!">" ++ rest =
        (pre ++ tag.print ++ b!">" ++ m ++ b!"</") ++ (old ++ (gap ++ 62 :: rest)) := by simp
    rw [ht, this, show pre.length + tag.print.length + 1 + m.length + 2 = (pre ++ tag.print ++ b!">" ++ m ++ b!"</").length by
      simp only [List.length_append]; rfl, List.drop_left]
  obtain ⟨z', r', hz', hz2'⟩ : ∃ z t, gap ++ 62 :: rest = z :: t ∧ TagSep z := by
    cases gap with
    | nil => exact ⟨62, rest, rfl, .inr (.inl rfl)⟩
    | cons b g => exact ⟨b, g ++ 62 :: rest, rfl, .inl (hg b List.mem_cons_self)⟩
  rw [hz'] at hE2
  obtain ⟨_, _, _, nm, hsame, hnm⟩ := hdone.ets _ hE
  have hnm : nm = some old ∧ pre.length + tag.print.length + 1 + m.length + 2 + old.length < n.stop := by
    have hlt := hdone.lt
    have hle : ∀ hi, NameIs u src (pre.length + tag.print.length + 1 + m.length + 2) nm hi →
        nm = some old ∧ pre.length + tag.print.length + 1 + m.length + 2 + old.length ≤ hi := fun hi h => by
      have e := name_is h ho hE2 hz2'
      rw [e] at h
      obtain ⟨w, _, _, h3, _⟩ := h.len old rfl
      exact ⟨e, by omega⟩
    rcases hnm with ⟨_, h⟩ | ⟨h0, h⟩
    · have := hle _ h
      exact ⟨this.1, by omega⟩
    · obtain ⟨h1, h2⟩ := hle _ h
      refine ⟨h1, Nat.lt_of_le_of_ne h2 fun e => ?_⟩
      have h3 : (src.drop (pre.length + tag.print.length + 1 + m.length + 2))[old.length]? = some z' := by
        rw [hE2, List.getElem?_append_right (Nat.le_refl _), Nat.sub_self]; rfl
      rw [List.getElem?_drop, e] at h3
      have h0 : src[n.stop]? = some 60 := h0
      rw [h0] at h3
      cases h3
      unfold TagSep Space at hz2'
      omega
  obtain ⟨hnm, hstop⟩ := hnm
  rw [htag, hnm] at hsame
  exact ⟨htag, hsame, hstop⟩

/-- The edits of an element with an end tag. -/
theorem rename_both {pre m old gap rest : Str} {tag : TagText} {roots : List Node} {n : Node} {d : TextDoc} {p : Pos}
    (hd : Lawful d) (hn : TagName tag.name) (hl : tag.Legal) (ho : TagName old) (hg : Spaces gap)
    (ht : d.text = pre ++ tag.print ++ b!">" ++ m ++ b!"</" ++ old ++ gap ++ b!">" ++ rest)
    (hx : parse u cs void d.text = .ok roots)
    (hin : InForest roots n) (hs : n.start = pre.length)
    (hE : n.endTagStart = some (pre.length + tag.print.length + 1 + m.length))
    (hp : OnName (pre.length + 1) tag.name.length (d.offsetAt p) ∨
      OnName (pre.length + tag.print.length + 1 + m.length + 2) tag.name.length (d.offsetAt p)) :
    old.length = tag.name.length ∧ ∃ es, doRename d p N roots = some es ∧
      applyEdits d es = pre ++ ({ tag with name := N } : TagText).print ++ b!">" ++ m ++ b!"</" ++ N ++ gap ++ b!">" ++ rest := by
  obtain ⟨htag, hsame, hstop⟩ := end_same hn hl ho hg ht hx hin hs hE
  have hdone := parse_done hx hin
  obtain ⟨z', r', hz', hz2'⟩ : ∃ z t, gap ++ 62 :: rest = z :: t ∧ TagSep z := by
    cases gap with
    | nil => exact ⟨62, rest, rfl, .inr (.inl rfl)⟩
    | cons b g => exact ⟨b, g ++ 62 :: rest, rfl, .inl (hg b List.mem_cons_self)⟩
  have hlen := (sameName_len hsame (.inr ⟨hn.ascii, ho.ascii⟩)).1
  have hpl := print_length tag N
  refine ⟨hlen, _, (C28_edits_iff u cs void d roots p N _ hx).2 ⟨n, tag.name, hin, ?_, htag, ?_, rfl⟩, ?_⟩
  · unfold Covers
    unfold OnName at hp
    omega
  · rw [hs]
    exact hp.imp id fun h => ⟨_, hE, h⟩
  · have e0 : d.text = (pre ++ b!"<") ++ (tag.name ++ ((printAttrs tag.attrs ++ tag.gap ++ b!">" ++ m ++ b!"</") ++
        (old ++ (gap ++ 62 :: rest)))) := by rw [ht]; simp [TagText.print]
    have := apply_two (new := N) hd e0 hlen (name_head hn) (by
        obtain ⟨z, r, h, h1⟩ := name_sep hl (b := 62) (x := m ++ b!"</") (.inr (.inl rfl))
        exact ⟨z, r, by rw [← h]; simp, h1.lt⟩) (name_head ho) ⟨z', r', hz', hz2'.lt⟩
    rw [hE, hs]
    have l1 : (pre ++ b!"<").length = pre.length + 1 := by simp
    have l2 : ((pre ++ b!"<") ++ (tag.name ++ (printAttrs tag.attrs ++ tag.gap ++ b!">" ++ m ++ b!"</"))).length =
        pre.length + tag.print.length + 1 + m.length + 2 := by
      simp only [TagText.print, List.length_append, List.length_cons, List.length_nil]; omega
    rw [l1, l2] at this
    refine this.trans ?_
    simp [TagText.print]

/-- The edit of an element without an end tag. -/
theorem rename_one {pre w rest : Str} {tag : TagText} {roots : List Node} {n : Node} {d : TextDoc} {p : Pos}
    (hd : Lawful d) (hn : TagName tag.name) (hl : tag.Legal) (hw : w = b!">" ∨ w = b!"/>")
    (ht : d.text = pre ++ tag.print ++ w ++ rest)
    (hx : parse u cs void d.text = .ok roots)
    (hin : InForest roots n) (hs : n.start = pre.length) (hE : n.endTagStart = none)
    (hp : OnName (pre.length + 1) tag.name.length (d.offsetAt p)) :
    ∃ es, doRename d p N roots = some es ∧
      applyEdits d es = pre ++ ({ tag with name := N } : TagText).print ++ w ++ rest := by
  have hdone := parse_done hx hin
  obtain ⟨b, w', rfl, hb⟩ : ∃ b w', w = b :: w' ∧ TagSep b := by
    rcases hw with rfl | rfl
    · exact ⟨62, [], rfl, .inr (.inl rfl)⟩
    · exact ⟨47, [62], rfl, .inr (.inr rfl)⟩
  obtain ⟨z, r, hz, hz2⟩ := name_sep hl (x := w' ++ rest) hb
  have e0 : d.text = (pre ++ b!"<") ++ (tag.name ++ (z :: r)) := by rw [ht, ← hz]; simp [TagText.print]
  have hdrop : d.text.drop (n.start + 1) = tag.name ++ z :: r := by
    rw [e0, hs, show pre.length + 1 = (pre ++ b!"<").length by simp, List.drop_left]
  have htag : n.tag = some tag.name := name_is hdone.name hn hdrop hz2
  have hstop : n.start + 1 + tag.name.length < n.stop := by
    have h1 := hdone.name
    rw [htag] at h1
    obtain ⟨w, _, _, h3, _⟩ := h1.len _ rfl
    cases hste : n.startTagEnd with
    | some e =>
      have := name_before_close hdone htag hste
      obtain ⟨_, _, k3, k4⟩ := hdone.ste e hste
      have := k3.le
      omega
    | none =>
      rw [hste] at h3
      simp only [Option.getD_none] at h3
      have hzz : d.text[n.start + 1 + tag.name.length]? = some z := by
        have : (d.text.drop (n.start + 1))[tag.name.length]? = some z := by
          rw [hdrop, List.getElem?_append_right (Nat.le_refl _), Nat.sub_self]; rfl
        rwa [List.getElem?_drop] at this
      refine Nat.lt_of_le_of_ne (by omega) fun e => ?_
      rw [e] at hzz
      rcases (hdone.noste hste).2.2.2 with h0 | h0
      · have h0 : d.text[n.stop]? = some 60 := h0
        rw [h0] at hzz
        cases hzz
        unfold TagSep Space at hz2
        omega
      · have h0 : n.stop = d.text.length := h0
        rw [h0] at hzz
        simp at hzz
  refine ⟨_, (C28_edits_iff u cs void d roots p N _ hx).2 ⟨n, tag.name, hin, ?_, htag, ?_, rfl⟩, ?_⟩
  · unfold Covers
    unfold OnName at hp
    omega
  · rw [hs]
    exact .inl hp
  · have := apply_one (new := N) hd e0 (name_head hn) ⟨z, r, rfl, hz2.lt⟩
    rw [hE, hs]
    have l1 : (pre ++ b!"<").length = pre.length + 1 := by simp
    rw [l1] at this
    refine this.trans ?_
    rw [← hz]
    simp [TagText.print]

theorem renamed_mem {P : Nat} {μ : Nat → Nat} {x : List Node} {n : Node} (h : InForest x n) :
    InForest (renamedAll P N μ x) (renamed P N μ n) := by
  induction h with
  | root hm => rw [renamedAll_map]; exact .root (List.mem_map_of_mem hm)
  | @child m n hm hc ih =>
    refine .child ih ?_
    rw [renamed_eq]
    exact List.mem_map_of_mem hc

end Html
