import Verif.Proof.TagServices
import Verif.Proof.Restart

/-! # Scanning for the tag name from the start of a tag -/

namespace Html
open Spec

variable {c : Cfg}

theorem scan_ltOpen {s : Sc} {b : Nat} {r : Str} (hs : s.state = .WithinContent)
    (hr : rest c s = 60 :: b :: r) (h33 : b ≠ 33) (h47 : b ≠ 47) :
    scan c s = .ok (fin { adv s 1 with state := .AfterOpeningStartTag } s.pos .StartTagOpen none) := by
  have hl : s.pos < c.src.length := by
    have := congrArg List.length hr; simp [rest] at this; omega
  rw [scan_eq_internalScan]
  unfold internalScan
  have h1 : (rest c s).head? = some 60 := by rw [hr]; rfl
  have h2 : (rest c (adv s 1)).head? = some b := by rw [rest_adv, hr]; rfl
  rw [if_neg (by simp [eos]; omega), hs]
  unfold armContent
  simp only [peek_eq_head, h1, if_true, h2]
  rw [if_neg (by simp [h33]), if_neg (by simp [h47])]

theorem scan_ltSlash {s : Sc} {r : Str} (hs : s.state = .WithinContent) (hr : rest c s = 60 :: 47 :: r) :
    scan c s = .ok (fin { adv (adv s 1) 1 with state := .AfterOpeningEndTag } s.pos .EndTagOpen none) := by
  have hl : s.pos < c.src.length := by
    have := congrArg List.length hr; simp [rest] at this; omega
  rw [scan_eq_internalScan]
  unfold internalScan
  have h1 : (rest c s).head? = some 60 := by rw [hr]; rfl
  have h2 : (rest c (adv s 1)).head? = some 47 := by rw [rest_adv, hr]; rfl
  rw [if_neg (by simp [eos]; omega), hs]
  unfold armContent
  simp only [peek_eq_head, h1, if_true, h2]
  rw [if_neg (by simp)]

theorem nextElementName_some {s : Sc} (hb : isBoundary c.src s.pos = true)
    (h0 : 0 < elementNameLen c.uni (rest c s)) :
    ∃ x, nextElementName c s = .ok (some x, adv s (elementNameLen c.uni (rest c s))) := by
  unfold nextElementName
  rw [sliceFrom_eq hb]
  simp only [bind, Except.bind, pure, Except.pure]
  rw [if_neg (by omega)]
  exact ⟨_, rfl⟩

theorem nextElementName_none {s : Sc} (hb : isBoundary c.src s.pos = true)
    (h0 : elementNameLen c.uni (rest c s) = 0) : nextElementName c s = .ok (none, s) := by
  unfold nextElementName
  rw [sliceFrom_eq hb]
  simp only [bind, Except.bind, pure, Except.pure]
  rw [if_pos h0]

theorem pos_lt_of_name {s : Sc} (h0 : 0 < elementNameLen c.uni (rest c s)) : s.pos < c.src.length := by
  have := elementNameLen_le c.uni (rest c s)
  simp [rest] at this h0; omega

/-- One scan over the name behind `<` or `</`. -/
theorem scan_name {s : Sc} {st : TT}
    (hs : (s.state = .AfterOpeningStartTag ∧ st = .StartTag) ∨ (s.state = .AfterOpeningEndTag ∧ st = .EndTag))
    (hb : isBoundary c.src s.pos = true) (h0 : 0 < elementNameLen c.uni (rest c s)) :
    ∃ s', scan c s = .ok s' ∧ s'.tokenType = st ∧ s'.tokenOffset = s.pos ∧
      s'.pos = s.pos + elementNameLen c.uni (rest c s) := by
  have hl := pos_lt_of_name h0
  obtain ⟨x, hx⟩ := nextElementName_some hb h0
  rw [scan_eq_internalScan]
  unfold internalScan
  rw [if_neg (by simp [eos]; omega)]
  rcases hs with ⟨hs, rfl⟩ | ⟨hs, rfl⟩
  · rw [hs]
    simp only [armAfterOpeningStartTag, hx, bind, Except.bind, Option.isSome_some, if_true]
    exact ⟨_, rfl, rfl, rfl, rfl⟩
  · rw [hs]
    simp only [armAfterOpeningEndTag, hx, bind, Except.bind, Option.isSome_some, if_true]
    exact ⟨_, rfl, rfl, rfl, rfl⟩

/-- One scan over the blanks behind `<` or `</`. -/
theorem scan_blanks {s : Sc} (hs : s.state = .AfterOpeningStartTag ∨ s.state = .AfterOpeningEndTag)
    (hb : isBoundary c.src s.pos = true) (h0 : elementNameLen c.uni (rest c s) = 0)
    (hw : 0 < wsLen (rest c s)) :
    ∃ s', scan c s = .ok s' ∧ s'.tokenType = .Whitespace ∧ s'.state = s.state ∧
      s'.pos = s.pos + wsLen (rest c s) := by
  have hl : s.pos < c.src.length := by
    have := wsLen_le (rest c s); simp [rest] at this hw; omega
  have hx := nextElementName_none hb h0
  rw [scan_eq_internalScan]
  unfold internalScan
  rw [if_neg (by simp [eos]; omega)]
  rcases hs with hs | hs
  · rw [hs]
    simp only [armAfterOpeningStartTag, hx, bind, Except.bind]
    have e : rest c { s with lastTag := none, lastType := none, lastAttr := none } = rest c s := rfl
    rw [if_neg (by simp), e, if_pos hw]
    exact ⟨_, rfl, rfl, hs, rfl⟩
  · rw [hs]
    simp only [armAfterOpeningEndTag, hx, bind, Except.bind]
    rw [if_neg (by simp), if_pos hw]
    exact ⟨_, rfl, rfl, hs, rfl⟩

theorem space_not_name {u : Uni} {b : Nat} {r : Str} (h : Space b) : elementNameLen u (b :: r) = 0 := by
  unfold Space at h
  have : nameFirst u b = false := by rcases h with rfl | rfl | rfl | rfl | rfl <;> rfl
  simp only [elementNameLen, firstRunLen, codePoint, if_pos (show b < 128 by omega), this]
  rfl

theorem isWs_of_space {b : Nat} (h : Space b) : isWs b = true := by
  unfold Space at h
  rcases h with rfl | rfl | rfl | rfl | rfl <;> rfl

theorem wsLen_append {w r : Str} (hw : Spaces w) (hr : wsLen r = 0) : wsLen (w ++ r) = w.length := by
  induction w with
  | nil => exact hr
  | cons b w ih =>
    simp only [List.cons_append, wsLen, isWs_of_space (hw b (by simp)), if_true,
      ih (fun x hx => hw x (by simp [hx])), List.length_cons]
    omega

theorem wsLen_name {u : Uni} {r : Str} (h : 0 < elementNameLen u r) : wsLen r = 0 := by
  rw [wsLen_zero_iff]
  intro b hb
  obtain ⟨t, rfl⟩ := head_cons hb
  rw [Bool.eq_false_iff]
  intro hw
  rw [space_not_name (isWs_space hw)] at h
  omega

/-- Scanning on from behind `<` or `</` to the name. -/
theorem scanTo_name {s : Sc} {st : TT} {w t : Str} (hs : (s.state = .AfterOpeningStartTag ∧ st = .StartTag) ∨
      (s.state = .AfterOpeningEndTag ∧ st = .EndTag))
    (hw : Spaces w) (hat : At c.src s.pos (w ++ t)) (hb : isBoundary c.src (s.pos + w.length) = true)
    (hn : elementNameLen c.uni (c.src.drop (s.pos + w.length)) = t.length) (ht : t ≠ []) (f : Nat) :
    ∃ s', scanTo c st (f + 2) s = .ok s' ∧ s'.tokenType = st ∧
      s'.tokenOffset = s.pos + w.length ∧ s'.pos = s.pos + w.length + t.length := by
  have hpos : 0 < t.length := List.length_pos_iff.2 ht
  have hst : ∀ x : Sc, x.tokenType = st → (x.tokenType = .EOS ∨ x.tokenType = st) := fun x h => .inr h
  obtain ⟨r, hr⟩ := hat
  have hrest : rest c s = w ++ (t ++ r) := by rw [← List.append_assoc]; exact hr
  have hd : c.src.drop (s.pos + w.length) = t ++ r := by
    rw [← List.drop_drop, show c.src.drop s.pos = w ++ (t ++ r) from hrest]; simp
  cases w with
  | nil =>
    have hn' := hn
    simp only [List.length_nil, Nat.add_zero] at hn'
    obtain ⟨s', h1, h2, h3, h4⟩ := scan_name hs hb (by simp only [rest]; rw [hn']; exact hpos)
    refine ⟨s', ?_, h2, h3, ?_⟩
    · simp only [scanTo, h1, bind, Except.bind]
      rw [if_pos (hst _ h2)]
    · rw [h4]; simp only [rest]
      simp only [List.length_nil, Nat.add_zero] at hn ⊢
      rw [hn]
  | cons b w =>
    have hsp := hw b (by simp)
    have hb0 : isBoundary c.src s.pos = true := by
      have hg : c.src[s.pos]? = some b := at_get ⟨w ++ (t ++ r), by simpa [rest] using hrest⟩
      refine isBoundary_of_get hg ?_
      unfold Space at hsp
      simp [isCont]; omega
    have hws : wsLen (rest c s) = (b :: w).length := by
      rw [hrest]
      refine wsLen_append hw (wsLen_name (u := c.uni) ?_)
      rw [← hd, hn]; exact hpos
    obtain ⟨s1, h1, h2, h3, h4⟩ := scan_blanks (s := s) (hs.imp And.left And.left) hb0
      (by rw [hrest]; exact space_not_name hsp) (by rw [hws]; simp)
    rw [hws] at h4
    have hs1 : (s1.state = .AfterOpeningStartTag ∧ st = .StartTag) ∨
      (s1.state = .AfterOpeningEndTag ∧ st = .EndTag) := by rw [h3]; exact hs
    obtain ⟨s', h5, h6, h7, h8⟩ := scan_name hs1 (by rw [h4]; exact hb)
      (by simp only [rest, h4, hn]; exact hpos)
    refine ⟨s', ?_, h6, by rw [h7, h4], ?_⟩
    · simp only [scanTo, h1, bind, Except.bind, h5]
      rw [if_neg (by rw [h2]; rcases hs with ⟨_, rfl⟩ | ⟨_, rfl⟩ <;> simp), if_pos (hst _ h6)]
    · rw [h8]; simp only [rest, h4, hn]

/-- The name behind a `<`. -/
theorem scanTo_startTag {i : Nat} {w t : Str} (h60 : c.src[i]? = some 60)
    (hw : Spaces w) (hat : At c.src (i + 1) (w ++ t)) (hb : isBoundary c.src (i + 1 + w.length) = true)
    (hn : elementNameLen c.uni (c.src.drop (i + 1 + w.length)) = t.length) (ht : t ≠ []) (f : Nat) :
    ∃ s', scanTo c .StartTag (f + 3) (.new i .WithinContent) = .ok s' ∧ s'.tokenType = .StartTag ∧
      s'.tokenOffset = i + 1 + w.length ∧ s'.pos = i + 1 + w.length + t.length := by
  have hpos : 0 < t.length := List.length_pos_iff.2 ht
  obtain ⟨r, hr⟩ := hat
  have hd : c.src.drop (i + 1 + w.length) = t ++ r := by
    rw [← List.drop_drop, show c.src.drop (i + 1) = w ++ (t ++ r) by rw [hr]; simp]; simp
  obtain ⟨b, r', hb'⟩ : ∃ b r', w ++ t ++ r = b :: r' := by
    cases w with
    | nil => cases t with
      | nil => exact absurd rfl ht
      | cons b t => exact ⟨b, t ++ r, rfl⟩
    | cons b w => exact ⟨b, w ++ t ++ r, rfl⟩
  have hne : b ≠ 33 ∧ b ≠ 47 := by
    cases w with
    | cons b0 w =>
      simp at hb'
      have := hw b0 (by simp)
      unfold Space at this
      omega
    | nil =>
      have h2 : 0 < elementNameLen c.uni (b :: r') := by
        rw [← hb', List.nil_append, ← hd, hn]; exact hpos
      constructor <;> rintro rfl <;> simp [elementNameLen, firstRunLen, codePoint, nameFirst, isWordCP, isWordAscii] at h2
  have hlt := (List.getElem?_eq_some_iff.1 h60).1
  have h0 : rest c (.new i .WithinContent) = 60 :: b :: r' := by
    show c.src.drop i = _
    rw [List.drop_eq_getElem_cons hlt, hr, hb']
    congr 1
    exact (List.getElem?_eq_some_iff.1 h60).2
  have h1 := scan_ltOpen (c := c) (s := .new i .WithinContent) rfl h0 hne.1 hne.2
  obtain ⟨s', h2, h3, h4, h5⟩ := scanTo_name (c := c) (f := f) (st := .StartTag) (w := w) (t := t)
    (s := fin { adv (.new i .WithinContent) 1 with state := .AfterOpeningStartTag } i .StartTagOpen none)
    (.inl ⟨rfl, rfl⟩) hw ⟨r, hr⟩ hb hn ht
  refine ⟨s', ?_, h3, h4, h5⟩
  rw [scanTo, h1]
  simp only [bind, Except.bind]
  rw [if_neg (by simp [fin])]
  exact h2

/-- The name behind a `</`. -/
theorem scanTo_endTag {i : Nat} {w t : Str} (hlt : At c.src i b!"</")
    (hw : Spaces w) (hat : At c.src (i + 2) (w ++ t)) (hb : isBoundary c.src (i + 2 + w.length) = true)
    (hn : elementNameLen c.uni (c.src.drop (i + 2 + w.length)) = t.length) (ht : t ≠ []) (f : Nat) :
    ∃ s', scanTo c .EndTag (f + 3) (.new i .WithinContent) = .ok s' ∧ s'.tokenType = .EndTag ∧
      s'.tokenOffset = i + 2 + w.length ∧ s'.pos = i + 2 + w.length + t.length := by
  obtain ⟨r, hr⟩ := hlt
  have h1 := scan_ltSlash (c := c) (s := .new i .WithinContent) rfl hr
  obtain ⟨s', h2, h3, h4, h5⟩ := scanTo_name (c := c) (f := f) (st := .EndTag) (w := w) (t := t)
    (s := fin { adv (adv (.new i .WithinContent) 1) 1 with state := .AfterOpeningEndTag } i .EndTagOpen none)
    (.inr ⟨rfl, rfl⟩) hw hat hb hn ht
  refine ⟨s', ?_, h3, h4, h5⟩
  rw [scanTo, h1]
  simp only [bind, Except.bind]
  rw [if_neg (by simp [fin])]
  exact h2

theorem name_not_space {t : Str} (h : ElementName t) {b : Nat} (hb : b ∈ t) : ¬ Space b := by
  intro hs
  have hs' := hs
  unfold Space at hs
  have := h.2.1 b hb (by omega)
  unfold alnum at this
  omega

theorem at_append {src : Str} {i : Nat} {w t : Str} (h : At src i (w ++ t)) :
    At src i w ∧ At src (i + w.length) t := by
  obtain ⟨r, hr⟩ := h
  refine ⟨⟨t ++ r, by rw [hr]; simp⟩, r, ?_⟩
  rw [← List.drop_drop, hr]; simp

/-- There is only one way to split blanks and name. -/
theorem blanks_unique {src : Str} {i : Nat} {w w' t : Str} (ht : ElementName t)
    (hw : Spaces w) (hw' : Spaces w') (h : At src i (w ++ t)) (h' : At src i (w' ++ t)) :
    w.length = w'.length := by
  have key : ∀ {w w' : Str}, Spaces w' → At src i (w ++ t) → At src i (w' ++ t) →
      ¬ w.length < w'.length := by
    intro w w' hw' h h' hlt
    obtain ⟨a, t', rfl⟩ : ∃ a t', t = a :: t' := by
      cases t with
      | nil => exact absurd rfl ht.1
      | cons a t' => exact ⟨a, t', rfl⟩
    have h1 : src[i + w.length]? = some a := by
      obtain ⟨r, hr⟩ := h
      rw [← List.getElem?_drop, hr]; simp
    have h2 : src[i + w.length]? = some w'[w.length] := by
      obtain ⟨r, hr⟩ := h'
      rw [← List.getElem?_drop, hr, List.append_assoc, List.getElem?_append_left hlt,
        List.getElem?_eq_getElem hlt]
    rw [h1] at h2
    refine name_not_space ht (List.mem_cons_self) ?_
    rw [Option.some.inj h2]
    exact hw' _ (List.getElem_mem _)
  have h1 := key hw' h h'
  have h2 := key hw h' h
  omega

theorem NameIs.nameAt {u : Uni} {src : Str} {i hi : Nat} {t : Str} (h : NameIs u src i (some t) hi) :
    ∃ w, Spaces w ∧ At src i (w ++ t) ∧ isBoundary src (i + w.length) = true ∧
      elementNameLen u (src.drop (i + w.length)) = t.length ∧ NameAt src i t (i + w.length) ∧
      i + w.length + t.length ≤ hi := by
  obtain ⟨w, h1, h2, h3, h4, h5⟩ := h.len t rfl
  obtain ⟨w', h6, h7, h8, h9, h10⟩ := h.spec
  have := blanks_unique h8 h1 h6 h2 h7
  rw [← this] at h9
  exact ⟨w, h1, h2, h4, h5, ⟨h8, (at_append h2).2, h9, w, h1, (at_append h2).1, rfl⟩, h3⟩

theorem getTagNameRange_start {u : Uni} {cs : Bool} {d : TextDoc} {i hi : Nat} {t : Str}
    (h60 : d.text[i]? = some 60) (h : NameIs u d.text (i + 1) (some t) hi) :
    ∃ a, NameAt d.text (i + 1) t a ∧ a + t.length ≤ hi ∧
      getTagNameRange u cs d .StartTag i = .ok (some ⟨d.posAt a, d.posAt (a + t.length)⟩) := by
  obtain ⟨w, h1, h2, h3, h4, h5, h6⟩ := h.nameAt
  have ht := h5.1.1
  have hlen : 1 < d.text.length := by
    have := List.length_pos_iff.2 ht
    obtain ⟨r, hr⟩ := h2
    have := congrArg List.length hr
    simp at this; omega
  obtain ⟨k, hk⟩ : ∃ k, 2 * d.text.length + 1 = k + 3 := ⟨2 * d.text.length - 2, by omega⟩
  obtain ⟨s', h7, h8, h9, h10⟩ := scanTo_startTag (c := ⟨u, d.text, false, cs⟩) h60 h1 h2 h3 h4 ht k
  refine ⟨_, h5, h6, ?_⟩
  unfold getTagNameRange
  rw [hk]
  simp only [bind, Except.bind, h7]
  rw [if_pos (by rw [h8]; simp)]
  simp only [h9, Sc.tokenEnd, h10]

theorem getTagNameRange_end {u : Uni} {cs : Bool} {d : TextDoc} {i hi : Nat} {t : Str}
    (h60 : At d.text i b!"</") (h : NameIs u d.text (i + 2) (some t) hi) :
    ∃ a, NameAt d.text (i + 2) t a ∧ a + t.length ≤ hi ∧
      getTagNameRange u cs d .EndTag i = .ok (some ⟨d.posAt a, d.posAt (a + t.length)⟩) := by
  obtain ⟨w, h1, h2, h3, h4, h5, h6⟩ := h.nameAt
  have ht := h5.1.1
  have hlen : 1 < d.text.length := by
    have := List.length_pos_iff.2 ht
    obtain ⟨r, hr⟩ := h2
    have := congrArg List.length hr
    simp at this; omega
  obtain ⟨k, hk⟩ : ∃ k, 2 * d.text.length + 1 = k + 3 := ⟨2 * d.text.length - 2, by omega⟩
  obtain ⟨s', h7, h8, h9, h10⟩ := scanTo_endTag (c := ⟨u, d.text, false, cs⟩) h60 h1 h2 h3 h4 ht k
  refine ⟨_, h5, h6, ?_⟩
  unfold getTagNameRange
  rw [hk]
  simp only [bind, Except.bind, h7]
  rw [if_pos (by rw [h8]; simp)]
  simp only [h9, Sc.tokenEnd, h10]

theorem covers_iff (r : Range) (p : Pos) : r.covers p = true ↔ PosLe r.start p ∧ PosLe p r.stop := by
  simp [Range.covers, Pos.le, PosLe]

end Html
