import Verif.Proof.FormatRange
import Verif.Proof.FormatInk

/-! # Texts with the same words -/

namespace Html
open Spec

/-! ### Collapsing white space -/

theorem collapse_nb {c : Str} (h : isBlankChar c = false) (l : List Str) : collapseC (c :: l) = c :: collapseC l := by
  have e : collapseC (c :: l) = if isBlankChar c then _ else c :: collapseC l := rfl
  rw [e, h]; rfl

theorem collapse_b {c : Str} (h : isBlankChar c = true) (l : List Str) :
    collapseC (c :: l) = if l.head?.any isBlankChar then collapseC l else [32] :: collapseC l := by
  have e : collapseC (c :: l) = if isBlankChar c then
    (if l.head?.any isBlankChar then collapseC l else [32] :: collapseC l) else c :: collapseC l := rfl
  rw [e, h]; rfl

theorem collapse_head (l : List Str) : (collapseC l).head?.any isBlankChar = l.head?.any isBlankChar := by
  induction l with
  | nil => rfl
  | cons c l ih =>
    cases hc : isBlankChar c with
    | false => rw [collapse_nb hc]; simp
    | true =>
      rw [collapse_b hc]
      split
      · rename_i h; rw [ih, h]; simp [hc]
      · simp only [List.head?_cons, Option.any_some, hc]; rfl

theorem collapse_nil {l : List Str} (h : collapseC l = []) : l = [] := by
  cases l with
  | nil => rfl
  | cons c l =>
    exfalso
    induction l generalizing c with
    | nil =>
      cases hc : isBlankChar c with
      | false => rw [collapse_nb hc] at h; cases h
      | true => rw [collapse_b hc] at h; simp [collapseC] at h
    | cons d l ih =>
      cases hc : isBlankChar c with
      | false => rw [collapse_nb hc] at h; cases h
      | true =>
        rw [collapse_b hc] at h
        split at h
        · exact ih d h
        · cases h

theorem collapse_app {c : Str} (h : isBlankChar c = false) (x y : List Str) :
    collapseC (x ++ c :: y) = collapseC x ++ c :: collapseC y := by
  induction x with
  | nil => exact collapse_nb h y
  | cons d x ih =>
    rw [List.cons_append]
    cases hd : isBlankChar d with
    | false => rw [collapse_nb hd, collapse_nb hd, ih]; rfl
    | true =>
      rw [collapse_b hd, collapse_b hd, ih]
      have : ((x ++ c :: y).head?.any isBlankChar) = x.head?.any isBlankChar := by
        cases x with
        | nil => simp [h]
        | cons e x => rfl
      rw [this]
      split <;> rfl

theorem collapse_pre {P : List Str} (h : ∀ c ∈ P, isBlankChar c = false) (y : List Str) :
    collapseC (P ++ y) = P ++ collapseC y := by
  induction P with
  | nil => rfl
  | cons c P ih =>
    rw [List.cons_append, collapse_nb (h c List.mem_cons_self), ih fun d hd => h d (List.mem_cons_of_mem _ hd)]
    rfl

/-- A character other than white space in the collapsed text is one of the text. -/
theorem collapse_split {c : Str} (h : isBlankChar c = false) {l x y : List Str} (hl : collapseC l = x ++ c :: y) :
    ∃ x' y', l = x' ++ c :: y' ∧ collapseC x' = x ∧ collapseC y' = y := by
  induction l generalizing x with
  | nil => simp [collapseC] at hl
  | cons d l ih =>
    cases hd : isBlankChar d with
    | false =>
      rw [collapse_nb hd] at hl
      cases x with
      | nil =>
        simp only [List.nil_append, List.cons.injEq] at hl
        exact ⟨[], l, by rw [hl.1]; rfl, rfl, hl.2⟩
      | cons e x =>
        simp only [List.cons_append, List.cons.injEq] at hl
        obtain ⟨x', y', h1, h2, h3⟩ := ih hl.2
        refine ⟨d :: x', y', by rw [h1]; rfl, ?_, h3⟩
        rw [collapse_nb hd, h2, hl.1]
    | true =>
      rw [collapse_b hd] at hl
      have head : ∀ {x' y' : List Str}, l = x' ++ c :: y' → x'.head?.any isBlankChar = l.head?.any isBlankChar := by
        intro x' y' he
        rw [he]
        cases x' with
        | nil => simp [h]
        | cons e x => rfl
      split at hl
      · rename_i hb
        obtain ⟨x', y', h1, h2, h3⟩ := ih hl
        refine ⟨d :: x', y', by rw [h1]; rfl, ?_, h3⟩
        rw [collapse_b hd, head h1, if_pos hb, h2]
      · rename_i hb
        cases x with
        | nil =>
          simp only [List.nil_append, List.cons.injEq] at hl
          rw [← hl.1] at h
          cases h
        | cons e x =>
          simp only [List.cons_append, List.cons.injEq] at hl
          obtain ⟨x', y', h1, h2, h3⟩ := ih hl.2
          refine ⟨d :: x', y', by rw [h1]; rfl, ?_, h3⟩
          rw [collapse_b hd, head h1, if_neg hb, h2, hl.1]

theorem collapse_pre_split {P : List Str} (h : ∀ c ∈ P, isBlankChar c = false) {l y : List Str}
    (hl : collapseC l = P ++ y) : ∃ y', l = P ++ y' ∧ collapseC y' = y := by
  induction P generalizing l with
  | nil => exact ⟨l, rfl, hl⟩
  | cons c P ih =>
    obtain ⟨x', y', h1, h2, h3⟩ := collapse_split (x := []) (h c List.mem_cons_self) hl
    have := collapse_nil h2
    subst this
    obtain ⟨y2, h4, h5⟩ := ih (fun d hd => h d (List.mem_cons_of_mem _ hd)) h3
    exact ⟨y2, by rw [h1, h4]; rfl, h5⟩

/-! ### Occurrences of words -/

/-- The characters occur one after the other. -/
def OccC (P l : List Str) : Prop := ∃ a b, l = a ++ (P ++ b)

theorem occC_collapse {P : List Str} (h : ∀ c ∈ P, isBlankChar c = false) (hP : P ≠ []) (l : List Str) :
    OccC P (collapseC l) ↔ OccC P l := by
  cases P with
  | nil => exact absurd rfl hP
  | cons c P =>
    have hc := h c List.mem_cons_self
    have h' : ∀ d ∈ P, isBlankChar d = false := fun d hd => h d (List.mem_cons_of_mem _ hd)
    constructor
    · rintro ⟨a, b, hl⟩
      rw [List.cons_append] at hl
      obtain ⟨a', y', h1, -, h3⟩ := collapse_split hc hl
      obtain ⟨b', h4, -⟩ := collapse_pre_split h' h3
      exact ⟨a', b', by rw [h1, h4]; rfl⟩
    · rintro ⟨a, b, rfl⟩
      rw [List.cons_append, collapse_app hc, collapse_pre h']
      exact ⟨_, _, rfl⟩

theorem occC_cons {P : List Str} (h : ∀ c ∈ P, isBlankChar c = false) (hP : P ≠ []) {d : Str} {l : List Str}
    (hd : isBlankChar d = true) : OccC P (d :: l) ↔ OccC P l := by
  constructor
  · rintro ⟨a, b, hl⟩
    cases a with
    | nil =>
      cases P with
      | nil => exact absurd rfl hP
      | cons c P =>
        simp only [List.nil_append, List.cons_append, List.cons.injEq] at hl
        have := h c List.mem_cons_self
        rw [← hl.1, hd] at this
        cases this
    | cons e a =>
      simp only [List.cons_append, List.cons.injEq] at hl
      exact ⟨a, b, hl.2⟩
  · rintro ⟨a, b, rfl⟩
    exact ⟨d :: a, b, rfl⟩

theorem occC_left {P : List Str} (h : ∀ c ∈ P, isBlankChar c = false) (hP : P ≠ []) (l : List Str) :
    OccC P (trimLeftC l) ↔ OccC P l := by
  unfold trimLeftC
  induction l with
  | nil => rfl
  | cons d l ih =>
    rw [List.dropWhile_cons]
    split
    · rename_i hd; rw [ih, occC_cons h hP hd]
    · rfl

theorem occC_reverse {P l : List Str} : OccC P.reverse l.reverse ↔ OccC P l := by
  have key : ∀ {P l : List Str}, OccC P l → OccC P.reverse l.reverse := by
    rintro P l ⟨a, b, rfl⟩
    exact ⟨b.reverse, a.reverse, by simp⟩
  refine ⟨fun h => ?_, key⟩
  have := key h
  rwa [List.reverse_reverse, List.reverse_reverse] at this

theorem occC_trim {P : List Str} (h : ∀ c ∈ P, isBlankChar c = false) (hP : P ≠ []) (l : List Str) :
    OccC P (trimC l) ↔ OccC P l := by
  unfold trimC
  have h1 : OccC P (trimLeftC (trimLeftC l).reverse).reverse ↔ OccC P.reverse (trimLeftC (trimLeftC l).reverse) := by
    rw [← occC_reverse, List.reverse_reverse]
  rw [h1, occC_left (by simpa using h) (by simpa using hP), occC_reverse, occC_left h hP]

/-! ### The characters of a tidy text -/

theorem Groups.left {a b : List Str} (h : Groups (a ++ b)) : Groups a := by
  induction a with
  | nil => trivial
  | cons c a ih =>
    refine ⟨?_, ih h.2⟩
    rcases h.1 with h1 | ⟨x, cs, h1, h2, h3, h4⟩
    · exact .inl h1
    · refine .inr ⟨x, cs, h1, h2, h3, fun d hd => h4 d ?_⟩
      cases a with
      | nil => simp at hd
      | cons e a => exact hd

theorem Groups.right {a b : List Str} (h : Groups (a ++ b)) : Groups b := by
  induction a with
  | nil => exact h
  | cons c a ih => exact ih h.2

theorem trimC_groups {l : List Str} (h : Groups l) : Groups (trimC l) := by
  unfold trimC
  have h1 : Groups (trimLeftC l) := h.drop _
  generalize trimLeftC l = m at h1
  unfold trimLeftC
  have h2 : m = (m.reverse.dropWhile isBlankChar).reverse ++ (m.reverse.takeWhile isBlankChar).reverse := by
    rw [← List.reverse_append, List.takeWhile_append_dropWhile, List.reverse_reverse]
  rw [h2] at h1
  exact h1.left

theorem collapse_groups {l : List Str} (h : Groups l) : Groups (collapseC l) := by
  induction l with
  | nil => trivial
  | cons c l ih =>
    have ih := ih h.2
    cases hc : isBlankChar c with
    | false =>
      rw [collapse_nb hc]
      refine ⟨?_, ih⟩
      rcases h.1 with h1 | ⟨x, cs, h1, h2, h3, h4⟩
      · exact .inl h1
      · refine .inr ⟨x, cs, h1, h2, h3, fun d hd => ?_⟩
        have key : ∀ l : List Str, (∀ d, l.head? = some d → isStray d = false) →
            ∀ d, (collapseC l).head? = some d → isStray d = false := by
          intro l
          induction l with
          | nil => intro _ d hd; cases hd
          | cons e l ih =>
            intro hl d hd
            cases he : isBlankChar e with
            | false =>
              rw [collapse_nb he] at hd
              exact hl d hd
            | true =>
              rw [collapse_b he] at hd
              split at hd
              · rename_i hb
                refine ih (fun x hx => ?_) d hd
                rw [hx] at hb
                cases hs : isStray x with
                | false => rfl
                | true =>
                  obtain ⟨b, rfl, hb'⟩ := isStray_iff.1 hs
                  simp [isCont] at hb'
                  have h0 : codePoint [b] = 0 := by
                    simp only [codePoint]
                    rw [if_neg (by omega), if_pos (by omega)]
                    simp; omega
                  simp only [Option.any_some, isBlankChar, h0] at hb
                  cases hb
              · simp at hd; subst hd; rfl
        exact key l h4 d hd
    | true =>
      rw [collapse_b hc]
      split
      · exact ih
      · exact ⟨.inl ⟨32, by omega, rfl⟩, ih⟩

theorem charsOf_tidy (s : Str) : charsOf (tidy s) = collapseC (trimC (charsOf s)) := by
  unfold tidy
  exact charsOf_groups_flatten (collapse_groups (trimC_groups (charsOf_groups s)))

theorem wordsC_collapse (l : List Str) : wordsC (collapseC l) = wordsC l := by
  induction l with
  | nil => rfl
  | cons c l ih =>
    have e : ∀ l, wordsC (c :: l) = if isBlankChar c then wordsC l
      else if l.head?.any (fun d => !isBlankChar d) then
        match wordsC l with
        | w :: ws => (c ++ w) :: ws
        | [] => [c]
      else c :: wordsC l := fun l => rfl
    cases hc : isBlankChar c with
    | false =>
      rw [collapse_nb hc, e, e, ih]
      have : ((collapseC l).head?.any fun d => !isBlankChar d) = l.head?.any fun d => !isBlankChar d := by
        have h1 := collapse_head l
        cases h2 : collapseC l with
        | nil => rw [collapse_nil h2]
        | cons a m =>
          cases l with
          | nil => simp [collapseC] at h2
          | cons b l => rw [h2] at h1; simp at h1; simp [h1]
      rw [this]
    | true =>
      rw [collapse_b hc, e, if_pos hc]
      split
      · exact ih
      · have : wordsC ([32] :: collapseC l) = wordsC (collapseC l) := by
          have e : wordsC ([32] :: collapseC l) = if isBlankChar [32] then wordsC (collapseC l) else _ := rfl
          rw [e, if_pos (by decide)]
        rw [this, ih]

/-- A tidy text has the words of the text. -/
theorem words_tidy (s : Str) : words (tidy s) = words s := by
  unfold words
  rw [charsOf_tidy, wordsC_collapse, wordsC_trim]

theorem tidy_of_words {s g : Str} (h : words s = words g) : tidy s = tidy g := by rw [tidy_eq, tidy_eq, h]

/-- Whether a word occurs depends on the words of the text. -/
theorem occurs_of_words {P s g : Str} (hP : P ≠ []) (hp : ∀ b ∈ P, b < 128 ∧ isBlankChar [b] = false)
    (h : words s = words g) : Occurs P s → Occurs P g := by
  have hb : ∀ c ∈ P.map (fun b => [b]), isBlankChar c = false := by
    intro c hc
    obtain ⟨b, hb, rfl⟩ := List.mem_map.1 hc
    exact (hp b hb).2
  have hne : P.map (fun b => [b]) ≠ [] := by simpa using hP
  have key : ∀ s, Occurs P s ↔ OccC (P.map (fun b => [b])) (charsOf s) := by
    intro s
    constructor
    · rintro ⟨a, b, rfl⟩
      rw [List.append_assoc, charsOf_append, charsOf_ascii (fun b hb => by have := (hp b hb).1; omega)]
      · exact ⟨_, _, rfl⟩
      · cases P with
        | nil => exact absurd rfl hP
        | cons x P => exact headOk_of_lt (hp x List.mem_cons_self).1
    · rintro ⟨a, b, hs⟩
      have e := charsOf_flatten s
      rw [hs] at e
      refine ⟨a.flatten, b.flatten, ?_⟩
      rw [← e, List.flatten_append, List.flatten_append]
      have : (P.map (fun b => [b])).flatten = P := by
        rw [← List.flatMap_def]; simp
      rw [this, List.append_assoc]
  rw [key, key, ← occC_trim hb hne, ← occC_collapse hb hne, ← charsOf_tidy, tidy_of_words h, charsOf_tidy,
    occC_collapse hb hne, occC_trim hb hne]
  exact id

end Html
