import Verif.Spec.Format
import Verif.Proof.Prim

/-! # Formatting of texts -/

namespace Html
open Spec

/-! ### Characters -/

/-- A list of characters as `charsOf` produces it. -/
def Groups : List Str → Prop
  | [] => True
  | g :: l =>
    ((∃ b, b < 192 ∧ g = [b]) ∨
      (∃ b cs, 192 ≤ b ∧ g = b :: cs ∧ (∀ c ∈ cs, isCont c = true) ∧ ∀ d, l.head? = some d → isStray d = false)) ∧
    Groups l

theorem isStray_iff {g : Str} : isStray g = true ↔ ∃ b, g = [b] ∧ isCont b = true := by
  constructor
  · intro h
    match g, h with
    | [b], h => exact ⟨b, rfl, h⟩
  · rintro ⟨b, rfl, h⟩; exact h

theorem Groups.drop {l : List Str} (h : Groups l) (p : Str → Bool) : Groups (l.dropWhile p) := by
  induction l with
  | nil => exact h
  | cons g l ih =>
    rw [List.dropWhile_cons]
    split
    · exact ih h.2
    · exact h

theorem head_dropWhile {α : Type} {p : α → Bool} {l : List α} {d : α} (h : (l.dropWhile p).head? = some d) :
    p d = false := by
  induction l with
  | nil => simp at h
  | cons a l ih =>
    rw [List.dropWhile_cons] at h
    split at h
    · exact ih h
    · rename_i hp
      simp at h; subst h; simpa using hp

theorem mem_takeWhile {α : Type} {p : α → Bool} {l : List α} {d : α} (h : d ∈ l.takeWhile p) : p d = true := by
  induction l with
  | nil => simp at h
  | cons a l ih =>
    rw [List.takeWhile_cons] at h
    split at h
    · rcases List.mem_cons.1 h with h | h
      · subst h; assumption
      · exact ih h
    · simp at h

theorem charsOf_groups (s : Str) : Groups (charsOf s) := by
  induction s with
  | nil => trivial
  | cons b t ih =>
    unfold charsOf
    split
    · rename_i hb
      refine ⟨.inr ⟨b, _, hb, rfl, ?_, fun d hd => head_dropWhile hd⟩, ih.drop _⟩
      intro c hc
      obtain ⟨g, hg, hc⟩ := List.mem_flatten.1 hc
      obtain ⟨b', rfl, hb'⟩ := isStray_iff.1 (mem_takeWhile hg)
      simp at hc; subst hc; exact hb'
    · rename_i hb
      exact ⟨.inl ⟨b, by omega, rfl⟩, ih⟩

theorem charsOf_flatten (s : Str) : (charsOf s).flatten = s := by
  induction s with
  | nil => rfl
  | cons b t ih =>
    unfold charsOf
    split
    · simp only [List.flatten_cons, List.cons_append]
      rw [← List.flatten_append, List.takeWhile_append_dropWhile, ih]
    · simp [ih]

theorem charsOf_ne_nil {s g : Str} (h : g ∈ charsOf s) : g ≠ [] := by
  have : ∀ l, Groups l → ∀ g ∈ l, g ≠ [] := by
    intro l
    induction l with
    | nil => simp
    | cons a l ih =>
      intro hl g hg
      rcases List.mem_cons.1 hg with rfl | hg
      · rcases hl.1 with ⟨b, _, rfl⟩ | ⟨b, cs, _, rfl, _⟩ <;> simp
      · exact ih hl.2 g hg
  exact this _ (charsOf_groups s) g h

/-- The text does not start inside a character. -/
def HeadOk (s : Str) : Prop := ∀ b, s.head? = some b → isCont b = false

theorem HeadOk.chars {s d : Str} (h : HeadOk s) (hd : (charsOf s).head? = some d) : isStray d = false := by
  cases s with
  | nil => simp [charsOf] at hd
  | cons b t =>
    have hb := h b rfl
    unfold charsOf at hd
    split at hd
    · simp at hd
      subst hd
      cases hs : (List.takeWhile isStray (charsOf t)).flatten with
      | nil => simp [isStray, hb]
      | cons _ _ => simp [isStray]
    · simp at hd; subst hd; simpa [isStray] using hb

theorem takeWhile_append_of {α : Type} {p : α → Bool} {x y : List α} (h : ∀ d, y.head? = some d → p d = false) :
    (x ++ y).takeWhile p = x.takeWhile p ∧ (x ++ y).dropWhile p = x.dropWhile p ++ y := by
  induction x with
  | nil =>
    cases y with
    | nil => simp
    | cons d y => simp [h d rfl]
  | cons a x ih =>
    simp only [List.cons_append, List.takeWhile_cons, List.dropWhile_cons]
    split
    · simp [ih]
    · simp

theorem charsOf_append {x y : Str} (h : HeadOk y) : charsOf (x ++ y) = charsOf x ++ charsOf y := by
  induction x with
  | nil => simp [charsOf]
  | cons b x ih =>
    have e : ∀ t, charsOf (b :: t) = if 192 ≤ b then (b :: ((charsOf t).takeWhile isStray).flatten) ::
      (charsOf t).dropWhile isStray else [b] :: charsOf t := fun t => rfl
    obtain ⟨h1, h2⟩ := takeWhile_append_of (x := charsOf x) (fun d hd => h.chars (d := d) hd)
    rw [List.cons_append, e, e, ih, h1, h2]
    split <;> rfl

theorem charsOf_ascii {w : Str} (h : ∀ b ∈ w, b < 192) (s : Str) :
    charsOf (w ++ s) = w.map (fun b => [b]) ++ charsOf s := by
  induction w with
  | nil => rfl
  | cons b w ih =>
    have hb : ¬ 192 ≤ b := by have := h b List.mem_cons_self; omega
    have e : ∀ t, charsOf (b :: t) = if 192 ≤ b then (b :: ((charsOf t).takeWhile isStray).flatten) ::
      (charsOf t).dropWhile isStray else [b] :: charsOf t := fun t => rfl
    rw [List.cons_append, e, if_neg hb, ih fun c hc => h c (List.mem_cons_of_mem _ hc)]
    rfl

theorem headOk_of_lt {b : Nat} {t : Str} (h : b < 128) : HeadOk (b :: t) := by
  intro c hc; simp at hc; subst hc; simp [isCont]; omega

theorem headOk_nil : HeadOk [] := by intro b h; simp at h

/-- The characters of a text that starts with a character. -/
theorem charsOf_cons {g x : Str}
    (h : (∃ b, b < 192 ∧ g = [b]) ∨ (∃ b cs, 192 ≤ b ∧ g = b :: cs ∧ (∀ c ∈ cs, isCont c = true) ∧ HeadOk x)) :
    charsOf (g ++ x) = g :: charsOf x := by
  rcases h with ⟨b, hb, rfl⟩ | ⟨b, cs, hb, rfl, hc, hx⟩
  · have : ¬ 192 ≤ b := by omega
    simp [charsOf, this]
  · have h1 : charsOf (cs ++ x) = cs.map (fun b => [b]) ++ charsOf x :=
      charsOf_ascii (fun b hb => by have := hc b hb; simp [isCont] at this; omega) x
    have h2 := (takeWhile_append_of (x := cs.map (fun b => [b])) (fun d hd => hx.chars (d := d) hd)).1
    have h2' := (takeWhile_append_of (x := cs.map (fun b => [b])) (fun d hd => hx.chars (d := d) hd)).2
    have h3 : (cs.map (fun b => [b])).takeWhile isStray = cs.map (fun b => [b]) := by
      clear h1 h2 h2'
      induction cs with
      | nil => rfl
      | cons c cs ih =>
        have : isStray [c] = true := by simpa [isStray] using hc c List.mem_cons_self
        simp only [List.map_cons, List.takeWhile_cons, this, if_true]
        rw [ih fun d hd => hc d (List.mem_cons_of_mem _ hd)]
    have e : charsOf (b :: (cs ++ x)) = (b :: ((charsOf (cs ++ x)).takeWhile isStray).flatten) ::
      (charsOf (cs ++ x)).dropWhile isStray := by
        conv => lhs; unfold charsOf
        rw [if_pos hb]
    have h3' : (cs.map (fun b => [b])).dropWhile isStray = [] := by
      have := List.takeWhile_append_dropWhile (p := isStray) (l := cs.map (fun b => [b]))
      rw [h3] at this
      simpa using this
    rw [List.cons_append, e, h1, h2, h2', h3, h3']
    have h4 : (cs.map (fun b => [b])).flatten = cs := by
      clear e h1 h2 h2' h3 h3' hc
      induction cs with
      | nil => rfl
      | cons c cs ih => simp [ih]
    rw [h4]
    rfl

theorem charsOf_head {g x : Str}
    (h : (∃ b, b < 192 ∧ g = [b]) ∨ (∃ b cs, 192 ≤ b ∧ g = b :: cs ∧ (∀ c ∈ cs, isCont c = true) ∧ HeadOk x)) :
    (charsOf (g ++ x)).head? = some g := by
  rw [charsOf_cons h]; rfl

/-! ### Words -/

/-- Words with one space between them. -/
def joinWords : List Str → Str
  | [] => []
  | [w] => w
  | w :: v :: ws => w ++ [32] ++ joinWords (v :: ws)

theorem joinWords_cons {w : Str} {ws : List Str} (h : ws ≠ []) : joinWords (w :: ws) = w ++ [32] ++ joinWords ws := by
  cases ws with
  | nil => exact absurd rfl h
  | cons v ws => rfl

theorem joinWords_app (c w : Str) (ws : List Str) : joinWords ((c ++ w) :: ws) = c ++ joinWords (w :: ws) := by
  cases ws with
  | nil => rfl
  | cons v ws => simp [joinWords]

theorem wordsC_trimLeft (l : List Str) : wordsC (trimLeftC l) = wordsC l := by
  unfold trimLeftC
  induction l with
  | nil => rfl
  | cons c l ih =>
    rw [List.dropWhile_cons]
    split
    · rename_i hc; rw [ih]; simp [wordsC, hc]
    · rfl

theorem wordsC_blank {l : List Str} (h : ∀ c ∈ l, isBlankChar c = true) : wordsC l = [] := by
  induction l with
  | nil => rfl
  | cons c l ih =>
    simp [wordsC, h c List.mem_cons_self, ih fun d hd => h d (List.mem_cons_of_mem _ hd)]

theorem wordsC_ne {c : Str} {l : List Str} (h : isBlankChar c = false) :
    ∃ y ws, wordsC (c :: l) = (c ++ y) :: ws := by
  simp only [wordsC, h, Bool.false_eq_true, if_false]
  split
  · split
    · exact ⟨_, _, rfl⟩
    · exact ⟨[], [], by simp⟩
  · exact ⟨[], wordsC l, by simp⟩

/-- A blank character separates words. -/
theorem wordsC_append {x y : List Str} (h : ∀ d, y.head? = some d → isBlankChar d = true) :
    wordsC (x ++ y) = wordsC x ++ wordsC y := by
  induction x with
  | nil => rfl
  | cons c x ih =>
    have e : ∀ l, wordsC (c :: l) = if isBlankChar c then wordsC l
      else if l.head?.any (fun d => !isBlankChar d) then
        match wordsC l with
        | w :: ws => (c ++ w) :: ws
        | [] => [c]
      else c :: wordsC l := fun l => rfl
    rw [List.cons_append, e, e, ih]
    split
    · rfl
    · cases x with
      | nil =>
        have : (y.head?.any fun d => !isBlankChar d) = false := by
          cases y with
          | nil => rfl
          | cons d y => simp [h d rfl]
        simp [this, wordsC]
      | cons d x =>
        have h0 : isBlankChar d = false → ∃ y' ws, wordsC (d :: x) = (d ++ y') :: ws := wordsC_ne
        revert h0
        generalize wordsC (d :: x) = m
        intro h0
        cases hd : isBlankChar d with
        | false =>
          obtain ⟨y', ws, rfl⟩ := h0 hd
          simp [hd]
        | true => simp [hd]

theorem wordsC_ne_nil {l : List Str} (hl : l ≠ []) (h : ∀ d, l.getLast? = some d → isBlankChar d = false) :
    wordsC l ≠ [] := by
  induction l with
  | nil => exact absurd rfl hl
  | cons c l ih =>
    cases hc : isBlankChar c with
    | false => obtain ⟨y, ws, h⟩ := wordsC_ne (l := l) hc; rw [h]; simp
    | true =>
      cases l with
      | nil => have := h c rfl; rw [hc] at this; cases this
      | cons d l =>
        have e : wordsC (c :: d :: l) = wordsC (d :: l) := by
          have : wordsC (c :: d :: l) = if isBlankChar c then wordsC (d :: l) else _ := rfl
          rw [this, hc]; rfl
        rw [e]
        exact ih (by simp) fun x hx => h x (by rw [List.getLast?_cons_cons]; exact hx)

theorem collapseC_flatten {l : List Str} (h : ∀ d, l.getLast? = some d → isBlankChar d = false) :
    (collapseC l).flatten = (if l.head?.any isBlankChar then [32] else []) ++ joinWords (wordsC l) := by
  induction l with
  | nil => rfl
  | cons c l ih =>
    have hl : ∀ d, l.getLast? = some d → isBlankChar d = false := by
      intro d hd
      cases l with
      | nil => simp at hd
      | cons a l => exact h d (by rw [List.getLast?_cons_cons]; exact hd)
    have ih := ih hl
    cases hc : isBlankChar c with
    | true =>
      have e : wordsC (c :: l) = wordsC l := by
        have : wordsC (c :: l) = if isBlankChar c then wordsC l else _ := rfl
        rw [this, hc]; rfl
      rw [e]
      unfold collapseC
      simp only [hc, if_true, List.head?_cons, Option.any_some]
      by_cases hd : l.head?.any isBlankChar = true
      · rw [if_pos hd, ih, if_pos hd]
      · rw [if_neg hd, List.flatten_cons, ih, if_neg hd]; rfl
    | false =>
      have e1 : collapseC (c :: l) = c :: collapseC l := by
        have : collapseC (c :: l) = if isBlankChar c then _ else c :: collapseC l := rfl
        rw [this, hc]; rfl
      rw [e1, List.flatten_cons, ih]
      simp only [List.head?_cons, Option.any_some, hc, Bool.false_eq_true, if_false, List.nil_append]
      cases l with
      | nil => simp [wordsC, hc, joinWords]
      | cons d l =>
        cases hd : isBlankChar d with
        | true =>
          have hn := wordsC_ne_nil (by simp) hl
          have e : wordsC (c :: d :: l) = c :: wordsC (d :: l) := by
            have : wordsC (c :: d :: l) = if isBlankChar c then wordsC (d :: l)
              else if !isBlankChar d then _ else c :: wordsC (d :: l) := rfl
            rw [this, hc, hd]; rfl
          rw [e, joinWords_cons hn]
          simp [hd]
        | false =>
          obtain ⟨y, ws, hw⟩ := wordsC_ne (l := l) hd
          have e : wordsC (c :: d :: l) = (c ++ (d ++ y)) :: ws := by
            have : wordsC (c :: d :: l) = if isBlankChar c then wordsC (d :: l)
              else if !isBlankChar d then
                (match wordsC (d :: l) with
                | w :: ws => (c ++ w) :: ws
                | [] => [c]) else c :: wordsC (d :: l) := rfl
            rw [this, hc, hd, hw]; rfl
          rw [e, hw, joinWords_app c (d ++ y)]
          simp only [List.head?_cons, Option.any_some, hd]
          rfl

theorem trimC_last (l : List Str) : ∀ d, (trimC l).getLast? = some d → isBlankChar d = false := by
  intro d hd
  unfold trimC at hd
  rw [List.getLast?_reverse] at hd
  exact head_dropWhile hd

theorem dropWhile_suffix {α : Type} (p : α → Bool) (l : List α) :
    ∃ w, (∀ x ∈ w, p x = true) ∧ l = w ++ l.dropWhile p :=
  ⟨l.takeWhile p, fun _ h => mem_takeWhile h, (List.takeWhile_append_dropWhile).symm⟩

theorem wordsC_trim (l : List Str) : wordsC (trimC l) = wordsC l := by
  rw [← wordsC_trimLeft l]
  unfold trimC
  generalize trimLeftC l = m
  unfold trimLeftC
  obtain ⟨w, h1, h2⟩ := dropWhile_suffix isBlankChar m.reverse
  have h3 : m = (m.reverse.dropWhile isBlankChar).reverse ++ w.reverse := by
    conv => lhs; rw [← List.reverse_reverse m, h2]
    rw [List.reverse_append]
  have h4 := wordsC_append (x := (m.reverse.dropWhile isBlankChar).reverse) (y := w.reverse)
    (fun d hd => h1 d (by
      have := List.mem_of_mem_head? (Option.mem_def.2 hd)
      simpa using this))
  rw [← h3, wordsC_blank (l := w.reverse) (fun c hc => h1 c (by simpa using hc)), List.append_nil] at h4
  exact h4.symm

/-- `tidy` writes the words with one space between them. -/
theorem tidy_eq (s : Str) : tidy s = joinWords (words s) := by
  unfold tidy words
  rw [collapseC_flatten (trimC_last _), wordsC_trim]
  have : ((trimC (charsOf s)).head?.any isBlankChar) = false := by
    cases h : (trimC (charsOf s)).head? with
    | none => rfl
    | some d =>
      have hd : isBlankChar d = false := by
        unfold trimC at h
        rw [List.head?_reverse] at h
        have h0 : (trimLeftC (charsOf s)).head? = some d ∨ trimLeftC (trimLeftC (charsOf s)).reverse = [] := by
          generalize hm : trimLeftC (charsOf s) = m at h ⊢
          obtain ⟨w, h1, h2⟩ := dropWhile_suffix isBlankChar m.reverse
          unfold trimLeftC at h ⊢
          cases hx : m.reverse.dropWhile isBlankChar with
          | nil => exact .inr rfl
          | cons a l =>
            rw [hx] at h h2
            left
            have h3 : m = (w ++ a :: l).reverse := by rw [← h2, List.reverse_reverse]
            rw [h3, List.head?_reverse, List.getLast?_append, h]
            rfl
        rcases h0 with h0 | h0
        · exact head_dropWhile h0
        · rw [h0] at h; simp at h
      simpa using hd
  rw [this]; rfl

theorem wordsC_mem_ne {l : List Str} (h : ∀ g ∈ l, g ≠ []) : ∀ w ∈ wordsC l, w ≠ [] := by
  induction l with
  | nil => simp [wordsC]
  | cons c l ih =>
    have ih := ih fun g hg => h g (List.mem_cons_of_mem _ hg)
    have hc := h c List.mem_cons_self
    intro w hw
    simp only [wordsC] at hw
    split at hw
    · exact ih w hw
    · split at hw
      · split at hw
        · rename_i heq
          rcases List.mem_cons.1 hw with rfl | hw
          · simp [hc]
          · exact ih w (by rw [heq]; exact List.mem_cons_of_mem _ hw)
        · simp at hw; subst hw; exact hc
      · rcases List.mem_cons.1 hw with rfl | hw
        · exact hc
        · exact ih w hw

theorem words_ne {s w : Str} (h : w ∈ words s) : w ≠ [] :=
  wordsC_mem_ne (fun _ hg => charsOf_ne_nil hg) w h

theorem tidy_nil_iff (s : Str) : tidy s = [] ↔ words s = [] := by
  rw [tidy_eq]
  constructor
  · intro h
    cases hw : words s with
    | nil => rfl
    | cons w ws =>
      have : w ≠ [] := words_ne (s := s) (by rw [hw]; exact List.mem_cons_self)
      rw [hw] at h
      cases ws with
      | nil => exact absurd h this
      | cons v ws => simp [joinWords] at h
  · intro h; rw [h]; rfl

/-! ### Words of lines -/

theorem words_newline (a b : Str) : words (a ++ 10 :: b) = words a ++ words b := by
  unfold words
  rw [charsOf_append (headOk_of_lt (by omega))]
  have : charsOf (10 :: b) = [10] :: charsOf b := by
    have e : charsOf (10 :: b) = if 192 ≤ 10 then _ else [10] :: charsOf b := rfl
    rw [e, if_neg (by omega)]
  rw [this, wordsC_append (by intro d hd; simp at hd; subst hd; rfl)]
  congr 1

theorem linesOf_split {a : Str} (h : 10 ∉ a) (b : Str) : linesOf (a ++ 10 :: b) = a :: linesOf b := by
  induction a with
  | nil => rfl
  | cons c a ih =>
    have hc : c ≠ 10 := fun hc => h (by rw [hc]; exact List.mem_cons_self)
    have ih := ih fun hm => h (List.mem_cons_of_mem _ hm)
    have e : linesOf (c :: (a ++ 10 :: b)) = if c = 10 then [] :: linesOf (a ++ 10 :: b) else
      match linesOf (a ++ 10 :: b) with
      | [] => [[c]]
      | l :: ls => (c :: l) :: ls := rfl
    rw [List.cons_append, e, if_neg hc, ih]

theorem linesOf_last {a : Str} (h : 10 ∉ a) (ha : a ≠ []) : linesOf a = [a] := by
  induction a with
  | nil => exact absurd rfl ha
  | cons c a ih =>
    have hc : c ≠ 10 := fun hc => h (by rw [hc]; exact List.mem_cons_self)
    have e : linesOf (c :: a) = if c = 10 then [] :: linesOf a else
      match linesOf a with
      | [] => [[c]]
      | l :: ls => (c :: l) :: ls := rfl
    rw [e, if_neg hc]
    cases a with
    | nil => rfl
    | cons d a => rw [ih (fun hm => h (List.mem_cons_of_mem _ hm)) (by simp)]

/-- A text without a newline, or its first line and the rest. -/
theorem line_cases (s : Str) : 10 ∉ s ∨ ∃ a b, s = a ++ 10 :: b ∧ 10 ∉ a := by
  induction s with
  | nil => simp
  | cons c s ih =>
    by_cases hc : c = 10
    · exact .inr ⟨[], s, by rw [hc]; rfl, by simp⟩
    · rcases ih with h | ⟨a, b, h1, h2⟩
      · exact .inl (by simp; exact ⟨Ne.symm hc, h⟩)
      · exact .inr ⟨c :: a, b, by rw [h1]; rfl, by simp; exact ⟨Ne.symm hc, h2⟩⟩

theorem words_lines (s : Str) : (linesOf s).flatMap words = words s := by
  generalize hn : s.length = n
  induction n using Nat.strongRecOn generalizing s with
  | ind n ih =>
    rcases line_cases s with h | ⟨a, b, rfl, h2⟩
    · cases s with
      | nil => rfl
      | cons c s => rw [linesOf_last h (by simp)]; simp
    · rw [linesOf_split h2, List.flatMap_cons, ih _ (by simp at hn; omega) b rfl, words_newline]

/-! ### Layouts -/

theorem Spec.Layout.append {a b : Str} (ha : Layout a) (hb : Layout b) : Layout (a ++ b) := by
  intro c hc
  rcases List.mem_append.1 hc with h | h
  · exact ha c h
  · exact hb c h

theorem Spec.Layout.nil : Layout [] := by intro c hc; simp at hc

theorem Spec.Layout.newline : Layout [10] := by intro c hc; simp at hc; simp [hc]

theorem Spec.Layout.replicate {n b : Nat} (h : b = 32 ∨ b = 9 ∨ b = 10) : Layout (List.replicate n b) := by
  intro c hc; rw [(List.mem_replicate.1 hc).2]; exact h

theorem Spec.Layout.indent (o : FormatOptions) (level : Nat) : Layout (indentText o level) := by
  unfold indentText
  split
  · exact Layout.replicate (.inl rfl)
  · exact Layout.replicate (.inr (.inl rfl))

theorem Spec.Layout.attrIndent (o : FormatOptions) (level : Nat) : Layout (attrIndent o level) := by
  unfold Html.attrIndent
  apply (Layout.indent o level).append
  split
  · split
    · exact Layout.replicate (.inl rfl)
    · split
      · exact Layout.newline
      · exact Layout.nil
  · split
    · exact Layout.replicate (.inl rfl)
    · exact Layout.newline

theorem Spec.Laid.left {ps : List Piece} {w s : Str} (hw : Layout w) (h : Laid Layout ps s) :
    Laid Layout ps (w ++ s) := by
  cases ps with
  | nil => exact hw.append h
  | cons p ps =>
    obtain ⟨w', r, rfl, h1, h2, h3⟩ := h
    refine ⟨w ++ w', r, by simp, hw.append h1, fun ha he => h2 ha ?_, h3⟩
    exact (List.append_eq_nil_iff.1 he).2

theorem Spec.Laid.append {ps qs : List Piece} {a b : Str} (ha : Laid Layout ps a) (hb : Laid Layout qs b) :
    Laid Layout (ps ++ qs) (a ++ b) := by
  induction ps generalizing a with
  | nil => exact Laid.left ha hb
  | cons p ps ih =>
    obtain ⟨w, r, rfl, h1, h2, h3⟩ := ha
    exact ⟨w, r ++ b, by simp, h1, h2, ih h3⟩

theorem Spec.Laid.right {ps : List Piece} {w s : Str} (hw : Layout w) (h : Laid Layout ps s) :
    Laid Layout ps (s ++ w) := by
  have := Laid.append (qs := []) h hw
  rwa [List.append_nil] at this

theorem Spec.Laid.single (t : Str) : Laid Layout [⟨false, t⟩] t :=
  ⟨[], [], by simp, Layout.nil, by simp, Layout.nil⟩

theorem Spec.Laid.single' {w : Str} (t : Str) (hw : Layout w) (h : w ≠ []) : Laid Layout [⟨true, t⟩] (w ++ t) :=
  ⟨w, [], by simp, hw, fun _ => h, Layout.nil⟩

/-- White space in front sets the first word apart. -/
theorem Spec.Laid.words {ws : List Str} {w s : Str} (hw : Layout w) (h : w ≠ [])
    (hl : Laid Layout (phrase ws) s) :
    Laid Layout (ws.map (⟨true, ·⟩)) (w ++ s) := by
  cases ws with
  | nil => exact hw.append hl
  | cons v vs =>
    obtain ⟨w', r, rfl, h1, _, h3⟩ := hl
    exact ⟨w ++ w', r, by simp, hw.append h1, fun _ he => h (List.append_eq_nil_iff.1 he).1, h3⟩

theorem Spec.Laid.weak {ws : List Str} {s : Str} (h : Laid Layout (ws.map (⟨true, ·⟩)) s) :
    Laid Layout (phrase ws) s := by
  cases ws with
  | nil => exact h
  | cons v vs =>
    obtain ⟨w', r, rfl, h1, _, h3⟩ := h
    exact ⟨w', r, rfl, h1, by simp, h3⟩

theorem joinWords_laid (ws : List Str) :
    Laid Layout (phrase ws) (joinWords ws) := by
  induction ws with
  | nil => exact Layout.nil
  | cons w ws ih =>
    cases ws with
    | nil => exact Laid.single w
    | cons v ws =>
      have h := Laid.words (w := [32]) (ws := v :: ws) (by intro c hc; simp at hc; simp [hc]) (by simp) ih
      have h2 := Laid.append (Laid.single w) h
      have e : joinWords (w :: v :: ws) = w ++ ([32] ++ joinWords (v :: ws)) := by simp [joinWords]
      rw [e]
      exact h2

theorem tidy_laid (s : Str) : Laid Layout (wordPieces s) (tidy s) := by
  rw [tidy_eq]; exact joinWords_laid (words s)

theorem beautifyLines_laid (o : FormatOptions) (level count : Nat) (nl : Bool) (i k : Nat) (ls : List Str) :
    Laid Layout ((ls.flatMap words).map (⟨true, ·⟩)) (beautifyLines o level count nl i k ls) := by
  induction ls generalizing i k with
  | nil => exact Layout.nil
  | cons l ls ih =>
    unfold beautifyLines
    rw [List.flatMap_cons, List.map_append]
    have hz : ¬ (tidy l).length > 0 → words l = [] := by
      intro h
      rw [← tidy_nil_iff]
      exact List.length_eq_zero_iff.1 (by omega)
    split
    · have h1 := Laid.words (w := [10] ++ indentText o level) (Layout.newline.append (Layout.indent o level))
        (by simp) (tidy_laid l)
      exact h1.append (ih _ _)
    · rename_i hl
      rw [hz hl, List.map_nil, List.nil_append]
      split
      · refine Laid.left (Layout.newline.append ?_) (ih _ _)
        split
        · exact Layout.indent o level
        · exact Layout.nil
      · split
        · exact ih _ _
        · exact ih _ _

/-- The words of a text are kept, in order and apart. -/
theorem beautifyText_laid (o : FormatOptions) (level : Nat) (t : Str) :
    Laid Layout (wordPieces t) (beautifyText o level t) := by
  unfold beautifyText
  split
  · have := beautifyLines_laid o level (linesOf t).length (decide (t.getLast? = some 10)) 0 0 (linesOf t)
    rw [words_lines] at this
    exact this.weak
  · exact tidy_laid t

/-! ### Trimming -/

/-- The text starts with a character that is not white space. -/
def Starts (w : Str) : Prop :=
  ∃ g x, w = g ++ x ∧ isBlankChar g = false ∧
    ((∃ b, b < 192 ∧ g = [b]) ∨ (∃ b cs, 192 ≤ b ∧ g = b :: cs ∧ (∀ c ∈ cs, isCont c = true) ∧ HeadOk x))

theorem Groups.headOk {l : List Str} (h : Groups l) (hs : ∀ d, l.head? = some d → isStray d = false) {d y : Str}
    (hd : l.head? = some d) : HeadOk (d ++ y) := by
  cases l with
  | nil => simp at hd
  | cons a l =>
    simp at hd; subst hd
    have h0 := hs a rfl
    rcases h.1 with ⟨b, _, rfl⟩ | ⟨b, cs, hb, rfl, _⟩
    · intro c hc; simp at hc; subst hc; simpa [isStray] using h0
    · intro c hc; simp at hc; subst hc; simp [isCont]; omega

theorem wordsC_starts {l : List Str} (h : Groups l) : ∀ w ∈ wordsC l, Starts w := by
  induction l with
  | nil => simp [wordsC]
  | cons c l ih =>
    have ih := ih h.2
    intro w hw
    cases hc : isBlankChar c with
    | true =>
      have e : wordsC (c :: l) = wordsC l := by
        have : wordsC (c :: l) = if isBlankChar c then wordsC l else _ := rfl
        rw [this, hc]; rfl
      rw [e] at hw
      exact ih w hw
    | false =>
      have key : ∀ y, (y = [] ∨ ∃ d y', l.head? = some d ∧ y = d ++ y') → Starts (c ++ y) := by
        intro y hy
        refine ⟨c, y, rfl, hc, ?_⟩
        rcases h.1 with hb | ⟨b, cs, h1, h2, h3, h4⟩
        · exact .inl hb
        · refine .inr ⟨b, cs, h1, h2, h3, ?_⟩
          rcases hy with rfl | ⟨d, y', hd, rfl⟩
          · exact headOk_nil
          · exact h.2.headOk h4 hd
      cases l with
      | nil =>
        simp [wordsC, hc] at hw
        subst hw
        have := key [] (.inl rfl)
        rwa [List.append_nil] at this
      | cons d l =>
        cases hd : isBlankChar d with
        | true =>
          have e : wordsC (c :: d :: l) = c :: wordsC (d :: l) := by
            have : wordsC (c :: d :: l) = if isBlankChar c then wordsC (d :: l)
              else if !isBlankChar d then _ else c :: wordsC (d :: l) := rfl
            rw [this, hc, hd]; rfl
          rw [e] at hw
          rcases List.mem_cons.1 hw with rfl | hw
          · have := key [] (.inl rfl)
            rwa [List.append_nil] at this
          · exact ih w hw
        | false =>
          obtain ⟨y, ws, hws⟩ := wordsC_ne (l := l) hd
          have e : wordsC (c :: d :: l) = (c ++ (d ++ y)) :: ws := by
            have : wordsC (c :: d :: l) = if isBlankChar c then wordsC (d :: l)
              else if !isBlankChar d then
                (match wordsC (d :: l) with
                | w :: ws => (c ++ w) :: ws
                | [] => [c]) else c :: wordsC (d :: l) := rfl
            rw [this, hc, hd, hws]; rfl
          rw [e] at hw
          rcases List.mem_cons.1 hw with rfl | hw
          · exact key _ (.inr ⟨d, y, rfl, rfl⟩)
          · exact ih w (by rw [hws]; exact List.mem_cons_of_mem _ hw)

theorem words_starts {s w : Str} (h : w ∈ words s) : Starts w := wordsC_starts (charsOf_groups s) w h

theorem Spec.Layout.lt {w : Str} (h : Layout w) : ∀ b ∈ w, b < 192 := by
  intro b hb; rcases h b hb with h | h | h <;> omega

theorem Spec.Layout.blank {w : Str} (h : Layout w) : ∀ c ∈ w.map (fun b => [b]), isBlankChar c = true := by
  intro c hc
  obtain ⟨b, hb, rfl⟩ := List.mem_map.1 hc
  rcases h b hb with rfl | rfl | rfl <;> rfl

theorem trimLeft_layout {w : Str} (h : Layout w) (s : Str) : trimLeftStr (w ++ s) = trimLeftStr s := by
  unfold trimLeftStr trimLeftC
  rw [charsOf_ascii h.lt]
  have hb := h.blank
  generalize w.map (fun b => [b]) = l at hb
  induction l with
  | nil => rfl
  | cons c l ih =>
    rw [List.cons_append, List.dropWhile_cons, if_pos (hb c List.mem_cons_self)]
    exact ih fun d hd => hb d (List.mem_cons_of_mem _ hd)

theorem trimLeft_starts {w r : Str} (h : Starts w) (hr : HeadOk r) : trimLeftStr (w ++ r) = w ++ r := by
  obtain ⟨g, x, rfl, hg, h⟩ := h
  have hh : (charsOf (g ++ x ++ r)).head? = some g := by
    rw [List.append_assoc]
    apply charsOf_head
    rcases h with h | ⟨b, cs, h1, h2, h3, h4⟩
    · exact .inl h
    · refine .inr ⟨b, cs, h1, h2, h3, ?_⟩
      cases x with
      | nil => exact hr
      | cons a x => exact h4
  unfold trimLeftStr trimLeftC
  have hf := charsOf_flatten (g ++ x ++ r)
  cases hc : charsOf (g ++ x ++ r) with
  | nil => rw [hc] at hh; simp at hh
  | cons a l =>
    rw [hc] at hh hf
    simp at hh; subst hh
    rw [List.dropWhile_cons, if_neg (by simp [hg]), hf]

theorem Spec.Laid.headOk {ws : List Str} {s : Str} (h : Laid Layout (ws.map (⟨true, ·⟩)) s) : HeadOk s := by
  have key : ∀ {w r : Str}, Layout w → w ≠ [] → HeadOk (w ++ r) := by
    intro w r hw hn
    cases w with
    | nil => exact absurd rfl hn
    | cons b w => exact headOk_of_lt (by rcases hw b List.mem_cons_self with h | h | h <;> omega)
  cases ws with
  | nil =>
    cases s with
    | nil => exact headOk_nil
    | cons b s => have := key (w := b :: s) (r := []) h (by simp); rwa [List.append_nil] at this
  | cons w ws =>
    obtain ⟨w0, r, rfl, h1, h2, _⟩ := h
    rw [List.append_assoc]
    exact key h1 (h2 rfl)

theorem trimLeft_laid {ws : List Str} {s : Str} (hs : ∀ w ∈ ws, Starts w) (h : Laid Layout (phrase ws) s) :
    Laid Layout (phrase ws) (trimLeftStr s) := by
  cases ws with
  | nil =>
    have := trimLeft_layout h []
    rw [List.append_nil] at this
    rw [this]
    exact Layout.nil
  | cons w ws =>
    obtain ⟨w0, r, rfl, h1, h2, h3⟩ := h
    rw [List.append_assoc, trimLeft_layout h1, trimLeft_starts (hs w List.mem_cons_self) h3.headOk]
    exact ⟨[], r, by simp, Layout.nil, by simp, h3⟩

end Html
