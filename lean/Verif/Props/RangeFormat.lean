import Verif.Props.Format

/-!
# What formatting a range does (C55)
-/

namespace Html.Props
open Html Spec

theorem slice_one {text : Str} (hn : AsciiNext text) {i b : Nat} (hb : b < 128) :
    (sliceStr text i (i + 1)).toOption = some [b] ↔ text[i]? = some b := by
  constructor
  · intro h
    cases hs : sliceStr text i (i + 1) with
    | error e => rw [hs] at h; simp [Except.toOption] at h
    | ok x =>
      obtain ⟨h1, h2, h3, h4, h5⟩ := sliceStr_ok hs
      rw [hs] at h
      simp [Except.toOption] at h
      subst h
      have := bytesIn_getElem? text i (i + 1) 0
      rw [← h5, if_pos (by omega)] at this
      simpa using this.symm
  · intro h
    have hlt := (List.getElem?_eq_some_iff.1 h).1
    rw [sliceStr_eq (by omega) (isBoundary_ascii h hb) (hn i b h hb)]
    have : bytesIn text i (i + 1) = [b] := by
      rw [bytesIn_eq_take, List.drop_eq_getElem_cons hlt, (List.getElem?_eq_some_iff.1 h).2]
      rfl
    rw [this]; rfl

theorem isBlankAt_tab {text : Str} (hn : AsciiNext text) {i : Nat} : isBlankAt text i = true ↔ TabOrSpace text i := by
  unfold isBlankAt TabOrSpace
  rw [Bool.or_eq_true, beq_iff_eq, beq_iff_eq, slice_one hn (by omega), slice_one hn (by omega)]

theorem isEolAt_get {text : Str} (hn : AsciiNext text) {i : Nat} : isEolAt text i = true ↔ text[i]? = some 10 := by
  unfold isEolAt
  rw [beq_iff_eq, slice_one hn (by omega)]

theorem startOffset_range {text : Str} (hn : AsciiNext text) (i : Nat) : RangeStart text i (startOffset text i) := by
  obtain ⟨h1, h2, h3⟩ := extendStart_spec text i
  refine ⟨extendStart text i, h1, fun j a b => (isBlankAt_tab hn).1 (h2 j a b), ?_, ?_⟩
  · rcases h3 with h | h
    · exact .inl h
    · exact .inr (fun hc => by rw [(isBlankAt_tab hn).2 hc] at h; cases h)
  · unfold startOffset
    dsimp only
    by_cases hc : extendStart text i = 0 ∨ text[extendStart text i - 1]? = some 10
    · rw [if_pos hc, if_pos (hc.imp_right (isEolAt_get hn).2)]
    · rw [if_neg hc, if_neg (fun h => hc (h.imp_right (isEolAt_get hn).1))]
      split <;> omega

theorem endOffset_range {text : Str} (hn : AsciiNext text) (i : Nat) : RangeEnd text i (endOffset text i) := by
  obtain ⟨h1, h2, h3⟩ := extendEnd_spec text (text.length - i) i (by omega)
  refine ⟨_, h1, fun j a b => (isBlankAt_tab hn).1 (h2 j a b),
    fun hc => absurd ((isBlankAt_tab hn).2 hc) (by rw [h3]; simp), ?_⟩
  unfold endOffset
  dsimp only
  generalize extendEnd text (text.length - i) i = x
  by_cases hc : x = text.length ∨ text[x]? = some 10
  · rw [if_pos hc, if_pos (hc.imp_right (isEolAt_get hn).2)]
  · rw [if_neg hc, if_neg (fun h => hc (h.imp_right (isEolAt_get hn).1))]

theorem rangeStart_unique {text : Str} {i s s' : Nat} (h : RangeStart text i s) (h' : RangeStart text i s') : s = s' := by
  obtain ⟨x, h1, h2, h3, rfl⟩ := h
  obtain ⟨y, k1, k2, k3, rfl⟩ := h'
  have : x = y := by
    rcases Nat.lt_trichotomy x y with h | h | h
    · exact absurd (h2 (y - 1) (by omega) (by omega)) (k3.resolve_left (by omega))
    · exact h
    · exact absurd (k2 (x - 1) (by omega) (by omega)) (h3.resolve_left (by omega))
  rw [this]

theorem rangeEnd_unique {text : Str} {i t t' : Nat} (h : RangeEnd text i t) (h' : RangeEnd text i t') : t = t' := by
  obtain ⟨x, h1, h2, h3, rfl⟩ := h
  obtain ⟨y, k1, k2, k3, rfl⟩ := h'
  have : x = y := by
    rcases Nat.lt_trichotomy x y with h | h | h
    · exact absurd (k2 x (by omega) (by omega)) h3
    · exact h
    · exact absurd (h2 y (by omega) (by omega)) k3
  rw [this]

theorem computeIndentLevel_ref (text : Str) (line tab : Nat) (h : refOffsetAt text line 0 ≠ 0) (ht : tab ≠ 0) :
    computeIndentLevel text (refOffsetAt text line 0) tab = .ok 0 := by
  obtain ⟨n, hn⟩ := (computeIndentLevel_iff text (refOffsetAt text line 0) tab).2 ⟨h, ht⟩
  rw [hn, computeIndentLevel_zero (refOffsetAt_line text line) hn]

theorem rangeStart_boundary {text : Str} (hn : AsciiNext text) {i s : Nat} (h : RangeStart text i s)
    (hi : isBoundary text i = true) : s ≤ i ∧ isBoundary text s = true := by
  obtain ⟨x, h1, h2, h3, rfl⟩ := h
  have hx : ∀ y, x ≤ y → y ≤ i → isBoundary text y = true := by
    intro y a b
    rcases Nat.lt_or_ge y i with hlt | hge
    · rcases h2 y a hlt with h | h
      · exact isBoundary_ascii h (by omega)
      · exact isBoundary_ascii h (by omega)
    · rw [show y = i by omega]; exact hi
  split
  · exact ⟨h1, hx _ (Nat.le_refl _) h1⟩
  · exact ⟨by omega, hx _ (by omega) (by omega)⟩

theorem rangeEnd_boundary {text : Str} (hn : AsciiNext text) {i t : Nat} (h : RangeEnd text i t)
    (hi : isBoundary text i = true) : isBoundary text t = true := by
  obtain ⟨x, h1, h2, h3, rfl⟩ := h
  split
  · rename_i hc
    rcases hc with rfl | hc
    · exact isBoundary_length _
    · exact isBoundary_ascii hc (by omega)
  · exact hi

/-- **C55.** What formatting a range returns, in every UTF-8 document: from the range and the text alone `s` and `t` are
determined, and one edit is returned. Its text is the text between `s` and `t` if `s` is inside a tag, and otherwise
what formatting this text as a document of its own gives. It fails exactly if `s` is the start of the document or
behind `t`, or not inside a tag and on the first line, or the tab size is 0, or formatting this text fails. -/
theorem C55_range_edit (u : Uni) (cs : Bool) (void : List Str) (o : FormatOptions) (cps : List Nat) (text : Str) (r : Range)
    (s t : Nat) (hu : Utf8 cps text) (hs : RangeStart text (refOffsetAt text r.start.line r.start.character) s)
    (ht : RangeEnd text (refOffsetAt text r.stop.line r.stop.character) t) (es : List TextEdit) :
    format u cs void o (.ref text) (some r) = .ok es ↔ s ≠ 0 ∧ s ≤ t ∧ ∃ start new, es = [⟨⟨start, refPosAt text t⟩, new⟩] ∧
      start = (if text[s - 1]? = some 10 then ⟨(refPosAt text s).line + 1, 0⟩ else refPosAt text s) ∧
      ((insideTag (text.take s) = true ∧ new = bytesIn text s t) ∨
       (insideTag (text.take s) = false ∧ refOffsetAt text start.line 0 ≠ 0 ∧ o.tabSize ≠ 0 ∧
        ∃ whole, format u cs void o (.ref (bytesIn text s t)) none = .ok [⟨whole, new⟩])) := by
  have hn := asciiNext_of_utf8 hu
  have bs := (rangeStart_boundary hn hs (ref_inRange text _ _).2).2
  have bt := rangeEnd_boundary hn ht (ref_inRange text _ _).2
  have es' := rangeStart_unique hs (startOffset_range hn _)
  have et := rangeEnd_unique ht (endOffset_range hn _)
  show formatRange u cs void o (.ref text) r = .ok es ↔ _
  unfold formatRange
  dsimp only
  rw [show startOffset (TextDoc.ref text).text ((TextDoc.ref text).offsetAt r.start) = s from es'.symm,
    show endOffset (TextDoc.ref text).text ((TextDoc.ref text).offsetAt r.stop) = t from et.symm]
  show (editRange (.ref text) s t >>= fun range => sliceStr text 0 s >>= fun firstHalf => sliceStr text s t >>= fun value => _) =
    .ok es ↔ _
  by_cases h0 : s = 0
  · subst h0
    simp [editRange, subU, bind, Except.bind]
  · have hsu : subU s 1 = .ok (s - 1) := by unfold subU; rw [if_pos (by omega)]
    have hc : (sliceStr text (s - 1) s).toOption = some [10] ↔ text[s - 1]? = some 10 := by
      have := slice_one hn (i := s - 1) (b := 10) (by omega)
      rwa [show s - 1 + 1 = s by omega] at this
    have hed : editRange (.ref text) s t = .ok ⟨if text[s - 1]? = some 10 then ⟨(refPosAt text s).line + 1, 0⟩
        else refPosAt text s, refPosAt text t⟩ := by
      unfold editRange
      simp only [hsu, bind, Except.bind]
      show (if (sliceStr text (s - 1) s).toOption = some [10] then _ else _) = _
      by_cases h : text[s - 1]? = some 10
      · rw [if_pos (hc.2 h), if_pos h]; rfl
      · rw [if_neg (fun x => h (hc.1 x)), if_neg h]; rfl
    rw [hed]
    generalize hst : (if text[s - 1]? = some 10 then (⟨(refPosAt text s).line + 1, 0⟩ : Pos) else refPosAt text s) = start
    have h1 : sliceStr text 0 s = .ok (text.take s) := by
      rw [sliceStr_eq (by omega) (by obtain ⟨q1, q2⟩ := id hu; rw [q2]; exact utf8_start q1) bs]; rfl
    rw [h1]
    by_cases hle : s ≤ t
    · rw [sliceStr_eq hle bs bt]
      simp only [bind, Except.bind]
      cases hi : insideTag (text.take s) with
      | true =>
        simp only [if_true]
        constructor
        · intro h
          cases h
          exact ⟨h0, hle, _, _, rfl, rfl, .inl ⟨trivial, rfl⟩⟩
        · rintro ⟨_, _, _, new, rfl, rfl, ⟨_, rfl⟩ | ⟨h, _⟩⟩
          · rfl
          · cases h
      | false =>
        have hlv : initialLevel o (.ref text) s ⟨start, refPosAt text t⟩ =
            computeIndentLevel text (refOffsetAt text start.line 0) o.tabSize := by
          unfold initialLevel; rw [if_pos h0]; rfl
        have hfm : ∀ new, (∃ whole, format u cs void o (.ref (bytesIn text s t)) none = .ok [⟨whole, new⟩]) ↔
            htmlBeautify u cs void o (trimLeftStr (bytesIn text s t)) = .ok new := by
          intro new
          unfold format
          cases hh : htmlBeautify u cs void o (trimLeftStr (bytesIn text s t)) with
          | error e =>
            constructor
            · rintro ⟨w, hw⟩
              simp [TextDoc.ref, hh, bind, Except.bind] at hw
            · intro h; cases h
          | ok y =>
            constructor
            · rintro ⟨w, hw⟩
              simp [TextDoc.ref, hh, bind, Except.bind] at hw
              rw [hw.2]
            · intro h
              cases h
              exact ⟨_, by simp [TextDoc.ref, hh, bind, Except.bind]; rfl⟩
        simp only [Bool.false_eq_true, if_false, false_and, false_or, true_and, hfm, hlv]
        constructor
        · intro h
          obtain ⟨l, hl, h⟩ := bind_ok (show Except.bind _ _ = _ from h)
          obtain ⟨y, hy, h⟩ := bind_ok (show Except.bind _ _ = _ from h)
          have hk := (computeIndentLevel_iff text (refOffsetAt text start.line 0) o.tabSize).1 ⟨l, hl⟩
          rw [computeIndentLevel_ref _ _ _ hk.1 hk.2] at hl
          cases hl
          cases h
          exact ⟨h0, hle, _, _, rfl, rfl, hk.1, hk.2, hy⟩
        · rintro ⟨_, _, _, new, rfl, rfl, h2, h3, hy⟩
          rw [computeIndentLevel_ref _ _ _ h2 h3, hy]
          rfl
    · have : sliceStr text s t = .error .slice := by
        unfold sliceStr
        rw [if_neg (by simp; omega)]
      rw [this]
      constructor
      · intro h; cases h
      · rintro ⟨_, h, _⟩; exact absurd h hle

/-- **C55.** The text that is formatted exists for every range, is determined, and consists of the selection and of
blanks beside it. -/
theorem C55_range_determined (cps : List Nat) (text : Str) (i : Nat) (hu : Utf8 cps text) :
    (∃ s, ∀ s', RangeStart text i s' ↔ s' = s) ∧ (∃ t, ∀ t', RangeEnd text i t' ↔ t' = t) := by
  have hn := asciiNext_of_utf8 hu
  refine ⟨⟨startOffset text i, fun s' => ⟨fun h => rangeStart_unique h (startOffset_range hn i), ?_⟩⟩,
    ⟨endOffset text i, fun s' => ⟨fun h => rangeEnd_unique h (endOffset_range hn i), ?_⟩⟩⟩
  · rintro rfl; exact startOffset_range hn i
  · rintro rfl; exact endOffset_range hn i

/-- The second line ` <b> </b> ` of a document: its blanks belong to it. -/
example : RangeStart b!"<a></a>\n <b> </b> \n" 9 8 ∧ RangeEnd b!"<a></a>\n <b> </b> \n" 17 18 :=
  ⟨⟨8, by omega, fun j h1 h2 => by
      have : j = 8 := by omega
      subst this; exact .inl rfl, .inr (by simp [TabOrSpace]), by decide⟩,
    ⟨18, by omega, fun j h1 h2 => by
      have : j = 17 := by omega
      subst this; exact .inl rfl, by simp [TabOrSpace], by decide⟩⟩

example : format exUni false [b!"br"] .default (.ref b!"<a></a>\n <b> </b> \n") (some ⟨⟨1, 1⟩, ⟨1, 9⟩⟩) =
      .ok [⟨⟨⟨2, 0⟩, ⟨1, 10⟩⟩, b!"<b></b>"⟩] ∧
    format exUni false [b!"br"] .default (.ref b!" <b> </b> ") none = .ok [⟨⟨⟨0, 0⟩, ⟨0, 10⟩⟩, b!"<b></b>"⟩] :=
  ⟨by krfl, by krfl⟩

end Html.Props
