import Verif.Proof.Plain
import Verif.Proof.Layout
import Verif.Spec.Reformat

/-! # Formatting a formatted text -/

namespace Html
open Spec

/-! ### Words of laid out texts -/

theorem words_left {w : Str} (h : Layout w) (s : Str) : words (w ++ s) = words s := by
  unfold words
  rw [charsOf_ascii h.lt]
  have hb := h.blank
  generalize w.map (fun b => [b]) = l at hb
  induction l with
  | nil => rfl
  | cons c l ih =>
    rw [List.cons_append]
    have := hb c List.mem_cons_self
    rw [wordsC, if_pos this]
    exact ih fun d hd => hb d (List.mem_cons_of_mem _ hd)

theorem words_layout {w : Str} (h : Layout w) : words w = [] := by
  have := words_left h []
  rw [List.append_nil] at this
  rw [this]; rfl

theorem mem_collapse {l : List Str} {c : Str} (h : c ∈ collapseC l) : c = [32] ∨ c ∈ l := by
  induction l with
  | nil => cases h
  | cons d l ih =>
    cases hd : isBlankChar d with
    | false =>
      rw [collapse_nb hd] at h
      rcases List.mem_cons.1 h with h | h
      · exact .inr (by rw [h]; exact List.mem_cons_self)
      · exact (ih h).imp id (List.mem_cons_of_mem _)
    | true =>
      rw [collapse_b hd] at h
      split at h
      · exact (ih h).imp id (List.mem_cons_of_mem _)
      · rcases List.mem_cons.1 h with h | h
        · exact .inl h
        · exact (ih h).imp id (List.mem_cons_of_mem _)

theorem trimC_sublist (l : List Str) : (trimC l).Sublist l := by
  unfold trimC trimLeftC
  have h1 := (List.dropWhile_sublist (l := l) isBlankChar)
  have h2 := (List.dropWhile_sublist (l := (l.dropWhile isBlankChar).reverse) isBlankChar).reverse
  rw [List.reverse_reverse] at h2
  exact h2.trans h1

theorem mem_tidy {s : Str} {b : Nat} (h : b ∈ tidy s) : b = 32 ∨ b ∈ s := by
  unfold tidy at h
  obtain ⟨c, hc, hb⟩ := List.mem_flatten.1 h
  rcases mem_collapse hc with rfl | hc
  · exact .inl (by simpa using hb)
  · right
    rw [← charsOf_flatten s]
    exact List.mem_flatten.2 ⟨c, (trimC_sublist _).subset hc, hb⟩

theorem tidy_line {s : Str} (h : 10 ∉ s) : 10 ∉ tidy s := fun hm => by
  rcases mem_tidy hm with h' | h'
  · omega
  · exact h h'

theorem collapse_length {l : List Str} (h : ∀ c ∈ l, c ≠ []) : (collapseC l).flatten.length ≤ l.flatten.length := by
  induction l with
  | nil => exact Nat.le_refl _
  | cons d l ih =>
    have ih := ih fun c hc => h c (List.mem_cons_of_mem _ hc)
    have hd0 := List.length_pos_iff.2 (h d List.mem_cons_self)
    cases hd : isBlankChar d with
    | false => rw [collapse_nb hd]; simp only [List.flatten_cons, List.length_append]; omega
    | true =>
      rw [collapse_b hd]
      split
      · simp only [List.flatten_cons, List.length_append]; omega
      · simp only [List.flatten_cons, List.length_append, List.length_cons, List.length_nil]; omega

theorem sublist_flatten {l m : List Str} (h : l.Sublist m) : l.flatten.length ≤ m.flatten.length := by
  induction h with
  | slnil => exact Nat.le_refl _
  | cons _ _ ih => simp only [List.flatten_cons, List.length_append]; omega
  | cons_cons _ _ ih => simp only [List.flatten_cons, List.length_append]; omega

theorem tidy_length (s : Str) : (tidy s).length ≤ s.length := by
  unfold tidy
  have h1 := collapse_length (l := trimC (charsOf s)) (fun c hc => charsOf_ne_nil ((trimC_sublist _).subset hc))
  have h2 := sublist_flatten (trimC_sublist (charsOf s))
  rw [charsOf_flatten] at h2
  omega

theorem tidy_tidy (s : Str) : tidy (tidy s) = tidy s := tidy_of_words (words_tidy s)

/-! ### Lines -/

/-- The lines that are left, where `kept` blank lines have been seen. -/
def keepLines (o : FormatOptions) : Nat → List (List Str) → List (List Str)
  | _, [] => []
  | kept, w :: l =>
    if w = [] then
      (if o.preserveNewLines ∧ o.maxPreserveNewLines.all (fun v => v > kept) then [[]] else []) ++ keepLines o (kept + 1) l
    else w :: keepLines o 0 l

/-- The text of a line. -/
def lineText (o : FormatOptions) (k : Nat) (w : List Str) : Str :=
  if w = [] then (if o.indentEmptyLines then indentation o k else []) else indentation o k ++ spaced w

/-- The text of some lines. -/
def render (o : FormatOptions) (k : Nat) (L : List (List Str)) : Str := L.flatMap fun w => 10 :: lineText o k w

theorem render_cons (o : FormatOptions) (k : Nat) (w : List Str) (L : List (List Str)) :
    render o k (w :: L) = 10 :: (lineText o k w ++ render o k L) := by
  unfold render; rw [List.flatMap_cons]; rfl

theorem layLines_render (o : FormatOptions) (k kept : Nat) (l : List (List Str)) :
    layLines o k kept l = render o k (keepLines o kept l) := by
  induction l generalizing kept with
  | nil => rfl
  | cons w l ih =>
    rw [layLines, keepLines]
    by_cases hw : w = []
    · rw [if_pos hw, if_pos hw, ih]
      split
      · rw [List.singleton_append, render_cons]
        simp [lineText, emptyLines]
      · rfl
    · rw [if_neg hw, if_neg hw, ih, render_cons]
      simp [lineText, hw]

theorem keepLines_keep (o : FormatOptions) {a b : Nat} (h : a ≤ b) (l : List (List Str)) :
    keepLines o a (keepLines o b l) = keepLines o b l := by
  induction l generalizing a b with
  | nil => rfl
  | cons w l ih =>
    rw [keepLines]
    by_cases hw : w = []
    · rw [if_pos hw]
      split
      · rename_i hc
        rw [List.singleton_append, keepLines, if_pos rfl, if_pos, ih (by omega)]
        · rfl
        · refine ⟨hc.1, ?_⟩
          have := hc.2
          revert this
          cases o.maxPreserveNewLines with
          | none => intro _; rfl
          | some v => simp only [Option.all_some, decide_eq_true_eq]; omega
      · exact ih (by omega)
    · rw [if_neg hw, keepLines, if_neg hw, ih (Nat.le_refl _)]

theorem keepLines_length (o : FormatOptions) (a : Nat) (l : List (List Str)) : (keepLines o a l).length ≤ l.length := by
  induction l generalizing a with
  | nil => exact Nat.le_refl _
  | cons w l ih =>
    rw [keepLines]
    split
    · have := ih (a + 1)
      split <;> simp <;> omega
    · have := ih 0
      simp only [List.length_cons]; omega

/-- Lines without the blank ones at the start. -/
def skipLines (l : List (List Str)) : List (List Str) := l.dropWhile (fun w => w.isEmpty)

theorem keepLines_skip (o : FormatOptions) (a : Nat) (l : List (List Str)) (h : keepLines o a l = l) :
    keepLines o 0 (skipLines l) = skipLines l := by
  induction l generalizing a with
  | nil => rfl
  | cons w l ih =>
    unfold skipLines
    rw [List.dropWhile_cons]
    rw [keepLines] at h
    by_cases hw : w = []
    · subst hw
      rw [if_pos rfl] at h
      split at h
      · simp only [List.singleton_append, List.cons.injEq, true_and] at h
        exact ih _ h
      · have := keepLines_length o (a + 1) l
        rw [List.nil_append] at h
        rw [h, List.length_cons] at this
        omega
    · rw [if_neg hw] at h
      have h' := List.cons.inj h
      have : w.isEmpty = false := by cases w <;> simp_all
      rw [this]
      simp only [Bool.false_eq_true, if_false]
      rw [keepLines, if_neg hw, h'.2]

/-- The words of a line. -/
def IsLine (w : List Str) : Prop := ∃ s, 10 ∉ s ∧ words s = w

theorem keepLines_mem (o : FormatOptions) {a : Nat} {l : List (List Str)} {w : List Str} (h : w ∈ keepLines o a l) :
    w ∈ l := by
  induction l generalizing a with
  | nil => cases h
  | cons v l ih =>
    rw [keepLines] at h
    split at h
    · rename_i hv
      rcases List.mem_append.1 h with h | h
      · split at h
        · simp at h; rw [h, hv]; exact List.mem_cons_self
        · cases h
      · exact List.mem_cons_of_mem _ (ih h)
    · rcases List.mem_cons.1 h with h | h
      · rw [h]; exact List.mem_cons_self
      · exact List.mem_cons_of_mem _ (ih h)

theorem keepLines_flatten (o : FormatOptions) (a : Nat) (l : List (List Str)) :
    (keepLines o a l).flatten = l.flatten := by
  induction l generalizing a with
  | nil => rfl
  | cons w l ih =>
    rw [keepLines]
    split
    · rename_i h
      rw [h, List.flatten_append, ih]
      split <;> simp
    · simp [ih]

theorem indentation_line (o : FormatOptions) (k : Nat) : 10 ∉ indentation o k := by
  unfold indentation
  split <;> simp

theorem indentation_layout (o : FormatOptions) (k : Nat) : Layout (indentation o k) := Layout.indent o k

theorem words_indent (o : FormatOptions) (k : Nat) : words (indentation o k) = [] :=
  words_layout (indentation_layout o k)

theorem IsLine.spaced {w : List Str} (h : IsLine w) : words (spaced w) = w ∧ 10 ∉ Spec.spaced w := by
  obtain ⟨s, h1, rfl⟩ := h
  rw [← tidy_spaced]
  exact ⟨words_tidy s, tidy_line h1⟩

theorem IsLine.text {w : List Str} (h : IsLine w) (o : FormatOptions) (k : Nat) :
    words (lineText o k w) = w ∧ 10 ∉ lineText o k w := by
  unfold lineText
  split
  · rename_i hw
    split
    · exact ⟨by rw [words_indent, hw], indentation_line o k⟩
    · exact ⟨by rw [hw]; rfl, by simp⟩
  · refine ⟨by rw [words_left (indentation_layout o k), h.spaced.1], ?_⟩
    rw [List.mem_append]
    rintro (hm | hm)
    · exact indentation_line o k hm
    · exact h.spaced.2 hm

theorem words_render (o : FormatOptions) (k : Nat) {L : List (List Str)} (h : ∀ w ∈ L, IsLine w) (z : Str)
    (hz : z = [] ∨ ∃ r, z = 10 :: r) : words (render o k L ++ z) = L.flatten ++ words z := by
  induction L with
  | nil => rfl
  | cons w L ih =>
    have ih := ih fun v hv => h v (List.mem_cons_of_mem _ hv)
    rw [render_cons]
    have e : 10 :: (lineText o k w ++ render o k L) ++ z = [] ++ 10 :: (lineText o k w ++ (render o k L ++ z)) := by simp
    rw [e, words_newline]
    have hw := (h w List.mem_cons_self).text o k
    have e2 : words (lineText o k w ++ (render o k L ++ z)) = w ++ (L.flatten ++ words z) := by
      cases L with
      | nil =>
        rcases hz with rfl | ⟨r, rfl⟩
        · have : render o k [] ++ [] = [] := rfl
          rw [this, List.append_nil, hw.1]
          simp [show words [] = [] from rfl]
        · have : render o k [] ++ 10 :: r = 10 :: r := rfl
          rw [this, words_newline, hw.1]
          have := words_newline [] r
          rw [List.nil_append] at this
          rw [this]
          simp [show words [] = [] from rfl]
      | cons v L =>
        have hr : render o k (v :: L) ++ z = 10 :: (lineText o k v ++ render o k L ++ z) := by rw [render_cons]; simp
        rw [hr] at ih ⊢
        rw [words_newline, hw.1]
        have := words_newline [] (lineText o k v ++ render o k L ++ z)
        rw [List.nil_append, ih] at this
        rw [show words [] = [] from rfl, List.nil_append] at this
        rw [← this]
    rw [e2]
    simp [show words [] = [] from rfl]

theorem unlines_flat (a : Str) (l : List Str) (z : Str) :
    unlines (a :: (l ++ [z])) = a ++ (l.flatMap (fun x => 10 :: x) ++ 10 :: z) := by
  induction l generalizing a with
  | nil => simp [unlines]
  | cons b l ih =>
    rw [List.cons_append, unlines, ih]
    · simp
    · simp

/-- Laid out lines, a line break and blanks stay as they are. -/
theorem beautifyText_render (o : FormatOptions) (k : Nat) {L : List (List Str)} (h : ∀ w ∈ L, IsLine w) {z : Str}
    (hz : 10 ∉ z) (hw : words z = []) : beautifyText o k (render o k L ++ 10 :: z) = render o k (keepLines o 0 L) := by
  have hl : LinesOf (render o k L ++ 10 :: z) ([] :: (L.map (lineText o k) ++ [z])) := by
    refine ⟨by simp, ?_, ?_⟩
    · intro l hl
      simp only [List.mem_cons, List.mem_append, List.mem_map, List.not_mem_nil, or_false] at hl
      rcases hl with rfl | ⟨w, hw, rfl⟩ | rfl
      · simp
      · exact ((h w hw).text o k).2
      · exact hz
    · rw [unlines_flat, List.flatMap_map]
      rfl
  rw [beautifyText_lines o k hl (by simp), layLines_render]
  have e : (([] :: (L.map (lineText o k) ++ [z])).map words) = [] :: (L ++ [[]]) := by
    rw [List.map_cons, List.map_append, List.map_map, List.map_cons, List.map_nil, hw]
    have : L.map (words ∘ lineText o k) = L := by
      refine List.map_congr_left (g := id) (fun w hw => ((h w hw).text o k).1) |>.trans (by simp)
    rw [this]; rfl
  rw [e, dropEnds_eq]
  simp

/-- A text of laid out lines. -/
def Block (o : FormatOptions) (k : Nat) (t : Str) : Prop :=
  ∃ L, (∀ w ∈ L, IsLine w) ∧ keepLines o 0 L = L ∧ t = render o k L

theorem block_nil (o : FormatOptions) (k : Nat) : Block o k [] := ⟨[], by simp, rfl, rfl⟩

theorem Block.again {o : FormatOptions} {k : Nat} {t : Str} (h : Block o k t) {z : Str} (hz : 10 ∉ z)
    (hw : words z = []) : beautifyText o k (t ++ 10 :: z) = t := by
  obtain ⟨L, h1, h2, rfl⟩ := h
  rw [beautifyText_render o k h1 hz hw, h2]

theorem dropBlank_mem {l : List (List Str)} {w : List Str} (h : w ∈ dropBlank l) : w ∈ l := by
  unfold dropBlank at h
  split at h
  · exact List.mem_cons_of_mem _ h
  · exact h

theorem dropBlank_flatten (l : List (List Str)) : (dropBlank l).flatten = l.flatten := by
  unfold dropBlank
  split <;> simp

theorem dropEnds_mem {l : List (List Str)} {w : List Str} (h : w ∈ dropEnds l) : w ∈ l := by
  unfold dropEnds at h
  exact dropBlank_mem (List.mem_reverse.1 (dropBlank_mem (List.mem_reverse.1 h)))

theorem flatten_unlines {ls : List Str} : words (unlines ls) = (ls.map words).flatten := by
  induction ls with
  | nil => rfl
  | cons a ls ih =>
    cases ls with
    | nil => simp [unlines]
    | cons b ls =>
      rw [unlines, List.append_assoc, List.singleton_append, words_newline, ih]
      · simp
      · simp

theorem dropEnds_flatten (l : List (List Str)) : (dropEnds l).flatten = l.flatten := by
  cases l with
  | nil => rfl
  | cons f r =>
    rcases List.eq_nil_or_concat r with rfl | ⟨mid, z, rfl⟩
    · cases f <;> simp [dropEnds, dropBlank]
    · rw [List.concat_eq_append, dropEnds_eq]
      by_cases hf : f = [] <;> by_cases hz : z = [] <;> simp [hf, hz]

theorem block_beautify (o : FormatOptions) (k : Nat) {x : Str} (h : 10 ∈ x) :
    ∃ L, (∀ w ∈ L, IsLine w) ∧ keepLines o 0 L = L ∧ beautifyText o k x = render o k L ∧ words x = L.flatten := by
  obtain ⟨ls, hl⟩ := linesOf_exists x
  rw [beautifyText_lines o k hl h, layLines_render]
  refine ⟨_, ?_, keepLines_keep o (Nat.le_refl 0) _, rfl, ?_⟩
  · intro w hw
    obtain ⟨s, h1, h2⟩ := List.mem_map.1 (dropEnds_mem (keepLines_mem o hw))
    exact ⟨s, hl.2.1 s h1, h2⟩
  · rw [keepLines_flatten, dropEnds_flatten, ← flatten_unlines, ← hl.2.2]

theorem beautify_block (o : FormatOptions) (k : Nat) {x : Str} (h : 10 ∈ x) : Block o k (beautifyText o k x) := by
  obtain ⟨L, h1, h2, h3, _⟩ := block_beautify o k h
  exact ⟨L, h1, h2, h3⟩

theorem words_beautify (o : FormatOptions) (k : Nat) (x : Str) : words (beautifyText o k x) = words x := by
  by_cases h : 10 ∈ x
  · obtain ⟨L, h1, h2, h3, h4⟩ := block_beautify o k h
    rw [h3, h4]
    have := words_render o k h1 [] (.inl rfl)
    rw [List.append_nil] at this
    rw [this]
    simp [show words [] = [] from rfl]
  · unfold beautifyText
    rw [if_neg h, words_tidy]

theorem words_closed (o : FormatOptions) (k : Nat) (x : Str) : words (x ++ 10 :: indentation o k) = words x := by
  rw [words_newline, words_indent, List.append_nil]

/-! ### Texts between elements -/

/-- The text in front of a child, up to the child. -/
def gapText (o : FormatOptions) (k : Nat) (g : Str) : Str := beautifyText o k g ++ 10 :: indentation o k

theorem block_broken {o : FormatOptions} {k : Nat} {t : Str} (h : Broken t) : Block o k (beautifyText o k t) := by
  rcases h with h | h
  · exact beautify_block o k h
  · by_cases h' : 10 ∈ t
    · exact beautify_block o k h'
    · unfold beautifyText
      rw [if_neg h', tidy_spaced, h]
      exact block_nil o k

theorem beautify_close {o : FormatOptions} {k j : Nat} {t : Str} (h : Broken t) :
    beautifyText o k (beautifyText o k t ++ 10 :: indentation o j) = beautifyText o k t :=
  (block_broken h).again (indentation_line o j) (words_indent o j)

theorem gapText_again {o : FormatOptions} {k : Nat} {g : Str} (h : Broken g) :
    gapText o k (gapText o k g) = gapText o k g := by
  have e := beautify_close (o := o) (k := k) (j := k) h
  unfold gapText
  rw [e]

theorem gapText_broken (o : FormatOptions) (k : Nat) (g : Str) : Broken (gapText o k g) := by
  left; unfold gapText; simp

theorem words_gapText (o : FormatOptions) (k : Nat) (g : Str) : words (gapText o k g) = words g := by
  unfold gapText; rw [words_closed, words_beautify]

/-! ### The text of an element without children -/

/-- The text of an element that takes several lines. -/
def leafBody (o : FormatOptions) (k : Nat) (t : Str) : Str :=
  if words t ≠ [] then 10 :: (indentation o k ++ trimLeftStr (beautifyText o k t)) else beautifyText o k t

theorem trimLeft_render (o : FormatOptions) (k : Nat) {L : List (List Str)} (h : ∀ w ∈ L, IsLine w) {w : List Str}
    {r : List (List Str)} (hs : skipLines L = w :: r) : trimLeftStr (render o k L) = spaced w ++ render o k r := by
  induction L with
  | nil => cases hs
  | cons v L ih =>
    rw [render_cons]
    unfold skipLines at hs
    rw [List.dropWhile_cons] at hs
    by_cases hv : v = []
    · subst hv
      simp only [List.isEmpty_nil, if_true] at hs
      have ih := ih (fun x hx => h x (List.mem_cons_of_mem _ hx)) hs
      have e : 10 :: (lineText o k [] ++ render o k L) = ([10] ++ lineText o k []) ++ render o k L := by simp
      rw [e, trimLeft_layout, ih]
      unfold lineText
      rw [if_pos rfl]
      refine Layout.append Layout.newline ?_
      split
      · exact indentation_layout o k
      · exact Layout.nil
    · have : v.isEmpty = false := by cases v <;> simp_all
      rw [this] at hs
      simp only [Bool.false_eq_true, if_false, List.cons.injEq] at hs
      obtain ⟨rfl, rfl⟩ := hs
      unfold lineText
      rw [if_neg hv]
      have e : 10 :: (indentation o k ++ spaced v ++ render o k L) =
        ([10] ++ indentation o k) ++ (spaced v ++ render o k L) := by simp
      rw [e, trimLeft_layout (Layout.append Layout.newline (indentation_layout o k))]
      obtain ⟨s, _, rfl⟩ := h v List.mem_cons_self
      cases hws : words s with
      | nil => exact absurd hws hv
      | cons x ws =>
        have hst : Starts x := words_starts (s := s) (by rw [hws]; exact List.mem_cons_self)
        have hr : HeadOk (render o k L) := by
          cases L with
          | nil => exact headOk_nil
          | cons y L => rw [render_cons]; exact headOk_of_lt (by omega)
        cases ws with
        | nil => rw [spaced]; exact trimLeft_starts hst hr
        | cons y ws =>
          rw [spaced]
          · rw [List.append_assoc, List.append_assoc]
            exact trimLeft_starts hst (headOk_of_lt (by omega))
          · simp

theorem skip_of_flatten {L : List (List Str)} (h : L.flatten ≠ []) : ∃ w r, skipLines L = w :: r ∧ w ≠ [] ∧
    (w :: r).flatten = L.flatten ∧ ∀ x ∈ w :: r, x ∈ L := by
  induction L with
  | nil => exact absurd rfl h
  | cons v L ih =>
    unfold skipLines
    rw [List.dropWhile_cons]
    by_cases hv : v = []
    · subst hv
      simp only [List.isEmpty_nil, if_true]
      obtain ⟨w, r, h1, h2, h3, h4⟩ := ih (by simpa using h)
      exact ⟨w, r, h1, h2, by rw [h3]; simp, fun x hx => List.mem_cons_of_mem _ (h4 x hx)⟩
    · have : v.isEmpty = false := by cases v <;> simp_all
      rw [this]
      exact ⟨v, L, rfl, hv, rfl, fun x hx => hx⟩

theorem leafBody_lines (o : FormatOptions) (k : Nat) (t : Str) :
    ∃ L, (∀ w ∈ L, IsLine w) ∧ keepLines o 0 L = L ∧ leafBody o k t = render o k L ∧ words t = L.flatten ∧
      (words t ≠ [] → skipLines L = L) := by
  unfold leafBody
  by_cases hw : words t = []
  · rw [if_neg (by simpa using hw)]
    by_cases h : 10 ∈ t
    · obtain ⟨L, h1, h2, h3, h4⟩ := block_beautify o k h
      exact ⟨L, h1, h2, h3, h4, fun h => absurd hw h⟩
    · unfold beautifyText
      rw [if_neg h, tidy_spaced, hw]
      exact ⟨[], by simp, rfl, rfl, rfl, fun h => absurd rfl h⟩
  · rw [if_pos hw]
    by_cases h : 10 ∈ t
    · obtain ⟨L, h1, h2, h3, h4⟩ := block_beautify o k h
      obtain ⟨w, r, h5, h6, h7, h8⟩ := skip_of_flatten (L := L) (by rw [← h4]; exact hw)
      refine ⟨w :: r, fun x hx => h1 x (h8 x hx), ?_, ?_, by rw [h4, h7], fun _ => ?_⟩
      · have := keepLines_skip o 0 L h2
        rw [h5] at this
        exact this
      · rw [h3, trimLeft_render o k h1 h5, render_cons]
        unfold lineText
        rw [if_neg h6]
        simp
      · unfold skipLines
        rw [List.dropWhile_cons]
        have : w.isEmpty = false := by cases w <;> simp_all
        rw [this]; rfl
    · refine ⟨[words t], ?_, ?_, ?_, by simp, fun _ => ?_⟩
      · intro w hm
        simp at hm
        exact ⟨t, h, hm.symm⟩
      · rw [keepLines, if_neg hw]; rfl
      · have e := trimLeft_render o k (L := [words t]) (w := words t) (r := []) (by
            intro w hm
            simp at hm
            exact ⟨t, h, hm.symm⟩) (by
            unfold skipLines
            rw [List.dropWhile_cons]
            have : (words t).isEmpty = false := by cases h : words t <;> simp_all
            rw [this]; rfl)
        have e2 : render o k [words t] = ([10] ++ indentation o k) ++ beautifyText o k t := by
          rw [render_cons]
          unfold lineText beautifyText
          rw [if_neg hw, if_neg h, tidy_spaced]
          simp [render]
        rw [e2, trimLeft_layout (Layout.append Layout.newline (indentation_layout o k))] at e
        rw [e, render_cons]
        unfold lineText
        rw [if_neg hw]
        simp
      · unfold skipLines
        rw [List.dropWhile_cons]
        have : (words t).isEmpty = false := by cases h : words t <;> simp_all
        rw [this]; rfl

theorem words_leafBody (o : FormatOptions) (k : Nat) (t : Str) : words (leafBody o k t) = words t := by
  obtain ⟨L, h1, h2, h3, h4, h5⟩ := leafBody_lines o k t
  have := words_render o k h1 [] (.inl rfl)
  rw [List.append_nil] at this
  rw [h3, this, h4]
  simp [show words [] = [] from rfl]

theorem leafBody_again (o : FormatOptions) (k j : Nat) (t : Str) :
    leafBody o k (leafBody o k t ++ 10 :: indentation o j) = leafBody o k t := by
  obtain ⟨L, h1, h2, h3, h4, h5⟩ := leafBody_lines o k t
  have hw : words (render o k L ++ 10 :: indentation o j) = words t := by
    rw [words_closed, ← h3, words_leafBody]
  have hb := beautifyText_render o k h1 (indentation_line o j) (words_indent o j)
  rw [h2] at hb
  rw [h3]
  unfold leafBody
  rw [hw, hb]
  split
  · rename_i hne
    obtain ⟨w, r, h6, h7, h8, h9⟩ := skip_of_flatten (L := L) (by rw [← h4]; exact hne)
    rw [trimLeft_render o k h1 h6]
    have e := h5 hne
    rw [h6] at e
    rw [← e, render_cons]
    unfold lineText
    rw [if_neg h7]
    simp
  · rfl

end Html
