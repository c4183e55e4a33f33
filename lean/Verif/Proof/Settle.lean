import Verif.Proof.Reformat

/-! # Formatting formatted documents -/

namespace Html
open Spec

/-! ### A formatted document is a legal one -/

theorem layout_spaces {w : Str} (h : Layout w) : Spaces w := by
  intro b hb
  have := h b hb
  unfold Space
  omega

theorem indentation_spaces (o : FormatOptions) (k : Nat) : Spaces (10 :: indentation o k) :=
  layout_spaces (Layout.append Layout.newline (indentation_layout o k))

theorem attrIndentation_spaces (o : FormatOptions) (k : Nat) : Spaces (10 :: attrIndentation o k) := by
  have := Layout.append Layout.newline (Layout.attrIndent o k)
  rw [attrIndentation_eq] at this
  exact layout_spaces this

theorem tagFormat_legal {o : FormatOptions} {k : Nat} {single : Bool} {t : TagText} (h : t.Legal) :
    (tagFormat o k single t).Legal := by
  obtain ⟨⟨h1, h2⟩, h3⟩ := h
  refine ⟨⟨?_, ?_⟩, ?_⟩
  · intro a ha
    obtain ⟨b, hb, rfl⟩ := List.mem_map.1 ha
    have hl := h1 b hb
    refine ⟨?_, ?_, hl.2.2⟩
    · dsimp only; split <;> simp
    · dsimp only
      split
      · exact attrIndentation_spaces o k
      · decide
  · unfold tagFormat
    rw [List.map_map]
    exact h2
  · unfold tagFormat
    dsimp only
    split
    · exact indentation_spaces o k
    · split <;> decide

theorem tagFormat_typed {o : FormatOptions} {k : Nat} {single : Bool} {t : TagText} (h : TypedScript t) :
    TypedScript (tagFormat o k single t) := by
  obtain ⟨h1, ⟨a, h2, h3⟩, h4⟩ := h
  refine ⟨h1, ⟨_, List.mem_map_of_mem h2, h3⟩, ?_⟩
  intro a ha
  obtain ⟨b, hb, rfl⟩ := List.mem_map.1 ha
  exact h4 b hb

theorem raw_word {P : Str} (hP : P ≠ []) (hp : ∀ b ∈ P, 33 ≤ b ∧ b < 127) {s g : Str} (h : words s = words g)
    (hg : ¬ Occurs P g) : ¬ Occurs P s := by
  refine fun hs => hg (occurs_of_words hP (fun b hb => ?_) h hs)
  have := hp b hb
  refine ⟨by omega, ?_⟩
  have h3 : codePoint [b] = b := by simp only [codePoint]; rw [if_pos (by omega)]
  unfold isBlankChar
  rw [h3]
  simp [isSpaceCP]
  omega

theorem tagFormat_raw {o : FormatOptions} {k : Nat} {single : Bool} {t : TagText} {s g : Str}
    (h : RawElement t [.text g]) (hw : words s = words g) : RawElement (tagFormat o k single t) [.text s] := by
  obtain ⟨body, h1, h2⟩ := h
  simp only [List.cons.injEq, Item.text.injEq, and_true] at h1
  subst h1
  refine ⟨s, rfl, ?_⟩
  rcases h2 with ⟨h3, h4⟩ | ⟨h3, h4, h5, h6⟩
  · exact .inl ⟨h3, raw_word (by decide) (by decide) hw h4⟩
  · refine .inr ⟨h3, ?_, raw_word (by decide) (by decide) hw h5, raw_word (by decide) (by decide) hw h6⟩
    intro a ha
    obtain ⟨b, hb, rfl⟩ := List.mem_map.1 ha
    exact h4 b hb

theorem words_close (o : FormatOptions) (k : Nat) (w : Bool) (x : Str) : words (x ++ closeText o k w) = words x := by
  unfold closeText
  split
  · exact words_closed o k x
  · rw [List.append_nil]

theorem words_leafFormat (o : FormatOptions) (k : Nat) (w : Bool) (x : Str) : words (leafFormat o k w x) = words x := by
  unfold leafFormat
  rw [words_close]
  split
  · exact words_leafBody o (k + 1) x
  · exact words_beautify o (k + 1) x

mutual
theorem El.format_legal {o : FormatOptions} {void : List Str} {k : Nat} (e : El) (h : e.Legal void) :
    (e.format o k).Legal void := by
  match e, h with
  | .single tag slash, h =>
    simp only [El.Legal, El.format] at h ⊢
    refine ⟨tagFormat_legal h.1, ?_⟩
    simp only [if_true]
    refine ⟨?_, .inl ?_⟩
    · cases slash
      · exact h.2.1.1
      · exact h.2.1
    · unfold tagFormat
      dsimp only
      split <;> simp
  | .elem tag kids gap, h =>
    simp only [El.Legal, El.format] at h ⊢
    obtain ⟨h1, h2, h3, h4⟩ := h
    refine ⟨tagFormat_legal h1, by decide, h3, ?_⟩
    rcases h4 with ⟨h4, h5⟩ | ⟨body, rfl, h4⟩
    · refine .inl ⟨h4.imp id tagFormat_typed, ?_⟩
      split
      · rename_i hl
        cases kids with
        | cons g e r => cases hl
        | last t =>
          simp only [Flow.Legal, Flow.print] at h5 ⊢
          exact plain_of_words (words_leafFormat o k _ t) h5
      · exact Flow.format_legal kids h5 _ _
    · refine .inr ⟨_, if_pos rfl, tagFormat_raw h4 (words_leafFormat o k _ _)⟩
theorem Flow.format_legal {o : FormatOptions} {void : List Str} {k : Nat} (f : Flow) (h : f.Legal void) (j : Nat) (w : Bool) :
    (f.format o k (closeText o j w)).Legal void := by
  match f, h with
  | .last t, h =>
    simp only [Flow.Legal, Flow.format] at h ⊢
    exact plain_of_words (by rw [words_close, words_beautify]) h
  | .cons g e r, h =>
    simp only [Flow.Legal, Flow.format] at h ⊢
    exact ⟨plain_of_words (words_gapText o k g) h.1, El.format_legal e h.2.1, Flow.format_legal r h.2.2 j w⟩
end

/-! ### Settled documents -/

mutual
/-- Formatting needs one pass: elements with children take several lines. -/
def El.Settled (o : FormatOptions) (k : Nat) : El → Prop
  | .elem tag kids _ => kids.isLeaf = true ∨ (elWraps o k tag kids.print = true ∧ kids.Settled o (k + 1))
  | .single _ _ => True
/-- Texts beside children are blank or have a line break. -/
def Flow.Settled (o : FormatOptions) (k : Nat) : Flow → Prop
  | .last t => Broken t
  | .cons g e r => Broken g ∧ e.Settled o k ∧ r.Settled o k
end

theorem tagFormat_elWraps (o : FormatOptions) (k j : Nat) (single : Bool) (t : TagText) (c : Str) :
    elWraps o j (tagFormat o k single t) c = elWraps o j t c := by
  unfold elWraps
  rw [tagFormat_line]
  rfl

theorem elWraps_newline {o : FormatOptions} {k : Nat} {t : TagText} {c : Str} (h : 10 ∈ c) : elWraps o k t c = true := by
  unfold elWraps
  simp [h]

theorem leafFormat_again (o : FormatOptions) (k : Nat) (tag : TagText) (t : Str) :
    leafFormat o k (elWraps o k tag (leafFormat o k (elWraps o k tag t) t)) (leafFormat o k (elWraps o k tag t) t) =
      leafFormat o k (elWraps o k tag t) t := by
  cases hw : elWraps o k tag t with
  | true =>
    have e : leafFormat o k true t = leafBody o (k + 1) t ++ 10 :: indentation o k := rfl
    rw [e, elWraps_newline (by simp)]
    have e2 : leafFormat o k true (leafBody o (k + 1) t ++ 10 :: indentation o k) =
      leafBody o (k + 1) (leafBody o (k + 1) t ++ 10 :: indentation o k) ++ 10 :: indentation o k := rfl
    rw [e2, leafBody_again]
  | false =>
    have h1 : 10 ∉ t := by
      intro h; rw [elWraps_newline h] at hw; cases hw
    have e : leafFormat o k false t = tidy t := by
      have : leafFormat o k false t = beautifyText o (k + 1) t ++ [] := rfl
      rw [this, List.append_nil]
      unfold beautifyText
      rw [if_neg h1]
    have h2 : elWraps o k tag (tidy t) = false := by
      unfold elWraps at hw ⊢
      simp only [Bool.or_eq_false_iff] at hw ⊢
      refine ⟨by simpa using tidy_line h1, ?_⟩
      have := tidy_length t
      cases h : tooLong o ((tagLine o k false tag).length + (tidy t).length + tag.name.length + 4) with
      | false => rfl
      | true =>
        have := tooLong_le (n := (tagLine o k false tag).length + t.length + tag.name.length + 4) (by omega) h
        rw [hw.2] at this
        cases this
    rw [e, h2]
    have : leafFormat o k false (tidy t) = beautifyText o (k + 1) (tidy t) ++ [] := rfl
    rw [this, List.append_nil]
    unfold beautifyText
    rw [if_neg (tidy_line h1), tidy_tidy]

theorem Flow.format_newline {o : FormatOptions} {k : Nat} {f : Flow} (hl : f.isLeaf = false) (close : Str) :
    10 ∈ (f.format o k close).print ∧ (f.format o k close).isLeaf = false := by
  cases f with
  | last t => cases hl
  | cons g e r =>
    refine ⟨?_, rfl⟩
    rw [Flow.format, Flow.print]
    unfold gapText
    simp

theorem El.format_elem (o : FormatOptions) (k : Nat) (tag : TagText) (kids : Flow) (gap : Str) (hl : kids.isLeaf = false) :
    (El.elem tag kids gap).format o k =
      .elem (tagFormat o k false tag) (kids.format o (k + 1) (closeText o k (elWraps o k tag kids.print))) [] := by
  rw [El.format, hl]; rfl

mutual
theorem El.format_again {o : FormatOptions} {k : Nat} (e : El) (h : e.Settled o k) :
    (e.format o k).format o k = e.format o k := by
  match e, h with
  | .single tag slash, _ => simp only [El.format, tagFormat_again]
  | .elem tag kids gap, h =>
    cases hl : kids.isLeaf with
    | true =>
      cases kids with
      | cons g e r => cases hl
      | last t =>
        simp only [El.format, Flow.isLeaf, if_true, Flow.print, tagFormat_again, tagFormat_elWraps, leafFormat_again]
    | false =>
      simp only [El.Settled] at h
      rcases h with h | ⟨h1, h2⟩
      · rw [hl] at h; cases h
      · obtain ⟨h3, h4⟩ := Flow.format_newline (o := o) (k := k + 1) hl (closeText o k (elWraps o k tag kids.print))
        rw [El.format_elem _ _ _ _ _ hl, El.format_elem _ _ _ _ _ h4, elWraps_newline h3, h1,
          tagFormat_again]
        have := Flow.format_again (o := o) (k := k + 1) (j := k) kids h2
        have e : closeText o k true = 10 :: indentation o k := rfl
        rw [e, this]
theorem Flow.format_again {o : FormatOptions} {k j : Nat} (f : Flow) (h : f.Settled o k) :
    (f.format o k (10 :: indentation o j)).format o k (10 :: indentation o j) = f.format o k (10 :: indentation o j) := by
  match f, h with
  | .last t, h =>
    simp only [Flow.Settled] at h
    rw [Flow.format, Flow.format, beautify_close h]
  | .cons g e r, h =>
    simp only [Flow.Settled] at h
    rw [Flow.format, Flow.format, gapText_again h.1, El.format_again e h.2.1, Flow.format_again r h.2.2]
end

mutual
theorem El.format_settled {o : FormatOptions} {k : Nat} (e : El) : ((e.format o k).format o k).Settled o k := by
  match e with
  | .single tag slash => simp only [El.format, El.Settled]
  | .elem tag kids gap =>
    cases hl : kids.isLeaf with
    | true =>
      cases kids with
      | cons g e r => cases hl
      | last t =>
        simp only [El.format, Flow.isLeaf, if_true, El.Settled]
        exact .inl trivial
    | false =>
      obtain ⟨h3, h4⟩ := Flow.format_newline (o := o) (k := k + 1) hl (closeText o k (elWraps o k tag kids.print))
      obtain ⟨h5, h6⟩ := Flow.format_newline (o := o) (k := k + 1) h4 (10 :: indentation o k)
      rw [El.format_elem _ _ _ _ _ hl, El.format_elem _ _ _ _ _ h4, elWraps_newline h3]
      have e : closeText o k true = 10 :: indentation o k := rfl
      rw [e]
      simp only [El.Settled]
      exact .inr ⟨elWraps_newline h5, Flow.format_settled kids _⟩
theorem Flow.format_settled {o : FormatOptions} {k j : Nat} (f : Flow) (close : Str) :
    ((f.format o k close).format o k (10 :: indentation o j)).Settled o k := by
  match f with
  | .last t =>
    simp only [Flow.format, Flow.Settled]
    exact .inl (by simp)
  | .cons g e r =>
    simp only [Flow.format, Flow.Settled]
    exact ⟨gapText_broken _ _ _, El.format_settled e, Flow.format_settled r close⟩
end

/-! ### Documents -/

/-- The formatted roots of a document. -/
def Flow.roots (o : FormatOptions) : Flow → Flow
  | .last _ => .last (if o.endWithNewline then [10] else [])
  | .cons _ e r => .cons [] (e.format o 0) (r.roots o)

/-- All roots are settled. -/
def Flow.RootsSettled (o : FormatOptions) : Flow → Prop
  | .last _ => True
  | .cons _ e r => e.Settled o 0 ∧ r.RootsSettled o

theorem Flow.roots_again {o : FormatOptions} {f : Flow} (h : f.RootsSettled o) : (f.roots o).roots o = f.roots o := by
  induction f using Flow.roots.induct with
  | case1 t => rfl
  | case2 g e r ih =>
    rw [Flow.roots, Flow.roots, ih h.2, El.format_again e h.1]

theorem Flow.roots_settled {o : FormatOptions} (f : Flow) : ((f.roots o).roots o).RootsSettled o := by
  induction f using Flow.roots.induct with
  | case1 t => trivial
  | case2 g e r ih =>
    simp only [Flow.roots, Flow.RootsSettled]
    exact ⟨El.format_settled e, ih⟩

theorem plain_space {w : Str} (h : 60 ∉ w) : Plain w := by
  refine ⟨[.text w], by simp [Item.isElement], ?_, by simp [printAll, Item.print]⟩
  simp only [AllLegal, Item.Legal]
  exact ⟨h, trivial⟩

theorem Flow.roots_legal {o : FormatOptions} {void : List Str} {f : Flow} (h : f.Legal void) : (f.roots o).Legal void := by
  induction f using Flow.roots.induct with
  | case1 t =>
    simp only [Flow.roots, Flow.Legal]
    exact plain_space (by split <;> simp)
  | case2 g e r ih =>
    simp only [Flow.roots, Flow.Legal] at h ⊢
    exact ⟨Plain.nil, El.format_legal e h.2.1, ih h.2.2⟩

theorem El.last (e : El) : ∃ x, e.print = x ++ [62] := by
  cases e with
  | elem tag kids gap => exact ⟨tag.print ++ b!">" ++ kids.print ++ (b!"</" ++ tag.name ++ gap), by simp [El.print]⟩
  | single tag slash =>
    cases slash
    · exact ⟨tag.print, by simp [El.print]⟩
    · exact ⟨tag.print ++ b!"/", by simp [El.print]⟩

theorem Flow.beautifyRoots {o : FormatOptions} {src : Str} {f : Flow} {i : Nat} {t : Str} (hat : At src i f.print)
    (h : beautifyRoots o src (f.nodes i) = .ok t) :
    t ++ (if o.endWithNewline then [10] else []) = (f.roots o).print ∧ (t = [] ∨ ∃ x, t = x ++ [62]) := by
  induction f using Flow.roots.induct generalizing i t with
  | case1 s =>
    simp only [Flow.nodes, Html.beautifyRoots, Except.ok.injEq] at h
    subst h
    exact ⟨rfl, .inl rfl⟩
  | case2 g e r ih =>
    simp only [Flow.nodes, Html.beautifyRoots] at h
    obtain ⟨x, h1, h⟩ := bind_ok h
    obtain ⟨y, h2, h⟩ := bind_ok h
    cases h
    simp only [Flow.print] at hat
    have he := El.beautify e (at_left (at_right hat)) h1
    have hr := ih (at_right (at_right hat)) h2
    refine ⟨?_, .inr ?_⟩
    · rw [Flow.roots, Flow.print, ← hr.1, he]
      have : indentation o 0 = [] := by unfold indentation; split <;> simp
      rw [this]
      simp
    · rcases hr.2 with rfl | ⟨z, rfl⟩
      · rw [List.append_nil, he]
        obtain ⟨z, hz⟩ := (e.format o 0).last
        exact ⟨indentation o 0 ++ z, by rw [hz]; simp⟩
      · exact ⟨x ++ z, by simp⟩

theorem Flow.htmlBeautify {u : Uni} {cs : Bool} {void : List Str} {o : FormatOptions} {f : Flow} {t : Str}
    (hl : f.Legal void) (h : htmlBeautify u cs void o f.print = .ok t) : t = (f.roots o).print := by
  unfold Html.htmlBeautify at h
  obtain ⟨roots, h1, h⟩ := bind_ok h
  have hr := Flow.parse hl h1
  subst hr
  obtain ⟨x, h2, h⟩ := bind_ok h
  obtain ⟨h3, h4⟩ := Flow.beautifyRoots (i := 0) ⟨[], by simp⟩ h2
  cases h
  have : x.getLast? ≠ some 10 := by
    rcases h4 with rfl | ⟨y, rfl⟩ <;> simp
  rw [← h3]
  cases o.endWithNewline <;> simp [this]

/-! ### White space at the start -/

theorem words_trimLeft (s : Str) : words (trimLeftStr s) = words s := by
  unfold words trimLeftStr
  have h := charsOf_groups s
  have hg : Groups (trimLeftC (charsOf s)) := h.drop _
  rw [charsOf_groups_flatten hg, wordsC_trimLeft]

theorem dropWhile_stop {α : Type} {p : α → Bool} {x y : List α} {c : α} (h : p c = false) :
    (x ++ c :: y).dropWhile p = x.dropWhile p ++ c :: y := by
  induction x with
  | nil => rw [List.nil_append, List.dropWhile_cons, h]; rfl
  | cons d x ih =>
    rw [List.cons_append, List.dropWhile_cons, List.dropWhile_cons]
    split
    · exact ih
    · rfl

theorem trimLeft_bracket (g y : Str) : trimLeftStr (g ++ 60 :: y) = trimLeftStr g ++ 60 :: y := by
  unfold trimLeftStr trimLeftC
  have e := charsOf_mid g (P := [60]) (by decide) (by decide) y
  rw [List.singleton_append] at e
  rw [e, List.map_cons, List.map_nil, List.singleton_append, dropWhile_stop (by decide), List.flatten_append,
    List.flatten_cons, charsOf_flatten]
  rfl

theorem El.bracket (e : El) : ∃ y, e.print = 60 :: y := by
  cases e <;> simp [El.print, TagText.print]

/-- Without the white space at the start the document has the same roots. -/
theorem Flow.trim {void : List Str} (o : FormatOptions) {f : Flow} (h : f.Legal void) :
    ∃ f' : Flow, f'.Legal void ∧ f'.print = trimLeftStr f.print ∧ f'.roots o = f.roots o ∧
      (f.RootsSettled o → f'.RootsSettled o) := by
  cases f with
  | last t =>
    simp only [Flow.Legal] at h
    refine ⟨.last (trimLeftStr t), ?_, rfl, rfl, fun h => h⟩
    simp only [Flow.Legal]
    exact plain_of_words (words_trimLeft t) h
  | cons g e r =>
    simp only [Flow.Legal] at h
    refine ⟨.cons (trimLeftStr g) e r, ?_, ?_, rfl, fun h => h⟩
    · simp only [Flow.Legal]
      exact ⟨plain_of_words (words_trimLeft g) h.1, h.2⟩
    · obtain ⟨y, hy⟩ := e.bracket
      simp only [Flow.print, hy, List.cons_append, trimLeft_bracket]

/-- Formatting a document. -/
theorem Flow.formatText {u : Uni} {cs : Bool} {void : List Str} {o : FormatOptions} {f : Flow} {t : Str}
    (hl : f.Legal void) (h : Html.htmlBeautify u cs void o (trimLeftStr f.print) = .ok t) : t = (f.roots o).print := by
  obtain ⟨f', h1, h2, h3, _⟩ := Flow.trim o hl
  rw [← h2] at h
  rw [Flow.htmlBeautify h1 h, h3]

/-! ### ASCII -/

theorem ascii_append {a b : Str} : isAscii (a ++ b) ↔ isAscii a ∧ isAscii b := by
  unfold isAscii
  simp only [List.mem_append]
  exact ⟨fun h => ⟨fun x hx => h x (.inl hx), fun x hx => h x (.inr hx)⟩, fun h x hx => hx.elim (h.1 x) (h.2 x)⟩

theorem ascii_layout {w : Str} (h : Layout w) : isAscii w := by
  intro b hb; have := h b hb; omega

theorem ascii_indent (o : FormatOptions) (k : Nat) : isAscii (10 :: indentation o k) :=
  ascii_layout (Layout.append Layout.newline (indentation_layout o k))

theorem ascii_close (o : FormatOptions) (k : Nat) (w : Bool) : isAscii (closeText o k w) := by
  unfold closeText
  split
  · exact ascii_indent o k
  · intro b hb; cases hb

end Html
