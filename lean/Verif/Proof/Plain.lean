import Verif.Proof.Respace

/-! # Texts between elements -/

namespace Html
open Spec

/-- A text between elements: texts, comments and doctypes. -/
def Plain (t : Str) : Prop :=
  ∃ items : List Item, (∀ it ∈ items, it.isElement = false) ∧ AllLegal [] items ∧ printAll items = t

theorem plain_legal {items : List Item} (h : ∀ it ∈ items, it.isElement = false) (hl : AllLegal [] items)
    (void : List Str) : AllLegal void items := by
  induction items with
  | nil => trivial
  | cons it l ih =>
    simp only [AllLegal] at hl ⊢
    refine ⟨?_, ih (fun x hx => h x (List.mem_cons_of_mem _ hx)) hl.2⟩
    have h0 := h it List.mem_cons_self
    have h1 := hl.1
    cases it <;> simp [Item.isElement] at h0 <;> simpa only [Item.Legal] using h1

/-- The characters of a text between elements. -/
inductive PlainC : List Str → Prop
  | nil : PlainC []
  | char {c : Str} {l : List Str} : c ≠ [60] → PlainC l → PlainC (c :: l)
  | comment {b l : List Str} : ¬ OccC [[45], [45], [62]] b → PlainC l →
      PlainC ([60] :: [33] :: [45] :: [45] :: (b ++ ([45] :: [45] :: [62] :: l)))
  | doctype {w : Str} {b l : List Str} : asciiLower w = b!"doctype" → [62] ∉ b → PlainC l →
      PlainC ([60] :: [33] :: (w.map (fun b => [b]) ++ (b ++ [62] :: l)))

theorem PlainC.tail {c : Str} {l : List Str} (h : PlainC (c :: l)) (hc : c ≠ [60]) : PlainC l := by
  cases h with
  | char _ h => exact h
  | comment _ _ => exact absurd rfl hc
  | doctype _ _ _ => exact absurd rfl hc

theorem blank_ne {c d : Str} (hc : isBlankChar c = true) (hd : isBlankChar d = false) : c ≠ d := by
  intro h; rw [h, hd] at hc; cases hc

theorem doctype_bytes {w : Str} (h : asciiLower w = b!"doctype") : ∀ b ∈ w, b < 128 ∧ isBlankChar [b] = false ∧ b ≠ 60 ∧ b ≠ 62 := by
  intro b hb
  have h1 : lowerByte b ∈ asciiLower w := List.mem_map.2 ⟨b, hb, rfl⟩
  rw [h] at h1
  have h2 : 65 ≤ b ∧ b ≤ 122 := by
    unfold lowerByte at h1
    split at h1 <;> simp at h1 <;> omega
  refine ⟨by omega, ?_, by omega, by omega⟩
  have h3 : codePoint [b] = b := by simp only [codePoint]; rw [if_pos (by omega)]
  unfold isBlankChar
  rw [h3]
  simp [isSpaceCP]
  omega

theorem PlainC.collapse {l : List Str} (h : PlainC l) : PlainC (collapseC l) := by
  induction h with
  | nil => exact .nil
  | char hc _ ih =>
    rename_i c l _
    cases hb : isBlankChar c with
    | false => rw [collapse_nb hb]; exact .char hc ih
    | true =>
      rw [collapse_b hb]
      split
      · exact ih
      · exact .char (by decide) ih
  | comment hb _ ih =>
    rw [collapse_nb (by decide), collapse_nb (by decide), collapse_nb (by decide), collapse_nb (by decide),
      collapse_app (by decide), collapse_nb (by decide), collapse_nb (by decide)]
    exact .comment (fun h => hb ((occC_collapse (by decide) (by decide) _).1 h)) ih
  | doctype hw hb _ ih =>
    rename_i w b l _
    rw [collapse_nb (by decide), collapse_nb (by decide), collapse_pre, collapse_app (by decide)]
    · refine .doctype hw (fun h => hb ?_) ih
      obtain ⟨x, y, hx⟩ := List.append_of_mem h
      obtain ⟨x', y', h1, -, -⟩ := collapse_split (by decide) hx
      rw [h1]; simp
    · intro c hc
      obtain ⟨b, hb, rfl⟩ := List.mem_map.1 hc
      exact (doctype_bytes hw b hb).2.1

theorem PlainC.uncollapse {m : List Str} (h : PlainC m) : ∀ {l : List Str}, collapseC l = m → PlainC l := by
  induction h with
  | nil => intro l hl; rw [collapse_nil hl]; exact .nil
  | char hc _ ih =>
    rename_i c m hm
    intro l hl
    induction l with
    | nil => exact .nil
    | cons d l ihl =>
      cases hd : isBlankChar d with
      | false =>
        rw [collapse_nb hd] at hl
        simp only [List.cons.injEq] at hl
        exact .char (by rw [hl.1]; exact hc) (ih hl.2)
      | true =>
        rw [collapse_b hd] at hl
        refine .char (blank_ne hd (by decide)) ?_
        split at hl
        · exact ihl hl
        · simp only [List.cons.injEq] at hl
          exact ih hl.2
  | comment hb _ ih =>
    intro l hl
    obtain ⟨y1, h1, h2⟩ := collapse_pre_split (P := [[60], [33], [45], [45]]) (by decide) hl
    obtain ⟨b', y2, h3, h4, h5⟩ := collapse_split (by decide) h2
    obtain ⟨l', h6, h7⟩ := collapse_pre_split (P := [[45], [62]]) (by decide) h5
    subst h1; subst h3; subst h6
    exact .comment (fun h => hb (by rw [← h4]; exact (occC_collapse (by decide) (by decide) _).2 h)) (ih h7)
  | doctype hw hb _ ih =>
    rename_i w b l0 _
    intro l hl
    obtain ⟨y1, h1, h2⟩ := collapse_pre_split (P := [60] :: [33] :: w.map (fun b => [b])) (by
      intro c hc
      simp only [List.mem_cons] at hc
      rcases hc with rfl | rfl | hc
      · decide
      · decide
      · obtain ⟨b, hb, rfl⟩ := List.mem_map.1 hc
        exact (doctype_bytes hw b hb).2.1) hl
    obtain ⟨b', y2, h3, h4, h5⟩ := collapse_split (by decide) h2
    subst h1; subst h3
    refine .doctype hw (fun h => hb ?_) (ih h5)
    obtain ⟨x, y, hx⟩ := List.append_of_mem h
    rw [← h4, hx, collapse_app (by decide)]
    simp

theorem PlainC.snoc {l : List Str} (h : PlainC l) {d : Str} (hd : isBlankChar d = true) : PlainC (l ++ [d]) := by
  induction h with
  | nil => exact .char (blank_ne hd (by decide)) .nil
  | char hc _ ih => exact .char hc ih
  | comment hb _ ih =>
    have := PlainC.comment hb ih
    simpa using this
  | doctype hw hb _ ih =>
    have := PlainC.doctype hw hb ih
    simpa using this

theorem append_last {α : Type} {x y : List α} {c d : α} {z : List α} (h : x ++ c :: y = z ++ [d]) (hc : c ≠ d) :
    ∃ y', y = y' ++ [d] ∧ z = x ++ c :: y' := by
  rcases List.eq_nil_or_concat y with rfl | ⟨y', e, rfl⟩
  · have := List.append_inj' h rfl
    simp at this
    exact absurd this.2 hc
  · have h2 : (x ++ c :: y') ++ [e] = z ++ [d] := by rw [← h]; simp
    have := List.append_inj' h2 rfl
    simp at this
    exact ⟨y', by rw [this.2]; simp, this.1.symm⟩

theorem PlainC.unsnoc {m : List Str} (h : PlainC m) : ∀ {l : List Str} {d : Str}, m = l ++ [d] → isBlankChar d = true →
    PlainC l := by
  induction h with
  | nil => intro l d hl; simp at hl
  | char hc hm ih =>
    rename_i c m
    intro l d hl hd
    cases l with
    | nil => exact .nil
    | cons e l =>
      simp only [List.cons_append, List.cons.injEq] at hl
      exact .char (by rw [← hl.1]; exact hc) (ih hl.2 hd)
  | comment hb hm ih =>
    rename_i b m
    intro l d hl hd
    have hl : ([60] :: [33] :: [45] :: [45] :: (b ++ [[45], [45]])) ++ [62] :: m = l ++ [d] := by simpa using hl
    obtain ⟨y', h1, h2⟩ := append_last hl (fun h => blank_ne hd (by decide) h.symm)
    subst h1; subst h2
    simpa using PlainC.comment hb (ih rfl hd)
  | doctype hw hb hm ih =>
    rename_i w b m
    intro l d hl hd
    have hl : ([60] :: [33] :: (w.map (fun b => [b]) ++ b)) ++ [62] :: m = l ++ [d] := by simpa using hl
    obtain ⟨y', h1, h2⟩ := append_last hl (fun h => blank_ne hd (by decide) h.symm)
    subst h1; subst h2
    simpa using PlainC.doctype hw hb (ih rfl hd)

theorem plainC_left (l : List Str) : PlainC (trimLeftC l) ↔ PlainC l := by
  unfold trimLeftC
  induction l with
  | nil => rfl
  | cons d l ih =>
    rw [List.dropWhile_cons]
    split
    · rename_i hd
      have := blank_ne hd (d := [60]) (by decide)
      exact ih.trans ⟨fun h => .char this h, fun h => h.tail this⟩
    · rfl

theorem plainC_trim (l : List Str) : PlainC (trimC l) ↔ PlainC l := by
  unfold trimC
  have key : ∀ m : List Str, PlainC (m.dropWhile isBlankChar).reverse ↔ PlainC m.reverse := by
    intro m
    induction m with
    | nil => rfl
    | cons d m ih =>
      rw [List.dropWhile_cons]
      split
      · rename_i hd
        rw [List.reverse_cons]
        exact ih.trans ⟨fun h => h.snoc hd, fun h => h.unsnoc rfl hd⟩
      · rfl
  have := key (trimLeftC l).reverse
  rw [List.reverse_reverse] at this
  exact this.trans (plainC_left l)

/-! ### Characters and bytes -/

theorem charsOf_mid (b : Str) {P : Str} (hP : P ≠ []) (h : ∀ b ∈ P, b < 128) (l : Str) :
    charsOf (b ++ (P ++ l)) = charsOf b ++ (P.map (fun b => [b]) ++ charsOf l) := by
  cases P with
  | nil => exact absurd rfl hP
  | cons c P =>
    have hc := h c List.mem_cons_self
    rw [List.cons_append, charsOf_append (headOk_of_lt (by omega)), ← List.cons_append,
      charsOf_ascii (fun x hx => by have := h x hx; omega)]

theorem plainC_text {t x : Str} (ht : 60 ∉ t) (hx : PlainC (charsOf x)) : PlainC (charsOf (t ++ x)) := by
  induction t with
  | nil => exact hx
  | cons b t ih =>
    have ih := ih fun h => ht (List.mem_cons_of_mem _ h)
    have hb : b ≠ 60 := fun h => ht (by rw [h]; exact List.mem_cons_self)
    have e : charsOf (b :: (t ++ x)) = if 192 ≤ b then (b :: ((charsOf (t ++ x)).takeWhile isStray).flatten) ::
      (charsOf (t ++ x)).dropWhile isStray else [b] :: charsOf (t ++ x) := rfl
    rw [List.cons_append, e]
    split
    · refine .char (by intro h; simp at h; omega) ?_
      generalize charsOf (t ++ x) = m at ih
      induction m with
      | nil => exact .nil
      | cons c m ihm =>
        rw [List.dropWhile_cons]
        split
        · rename_i hs
          exact ihm (ih.tail (by rintro rfl; simp [isStray, isCont] at hs))
        · exact ih
    · exact .char (by simpa using hb) ih

theorem Plain.chars {t : Str} (h : Plain t) : PlainC (charsOf t) := by
  obtain ⟨items, h1, h2, rfl⟩ := h
  induction items with
  | nil => exact .nil
  | cons it l ih =>
    simp only [AllLegal] at h2
    have ih := ih (fun x hx => h1 x (List.mem_cons_of_mem _ hx)) h2.2
    have h0 := h1 it List.mem_cons_self
    have hl := h2.1
    rw [printAll]
    cases it with
    | text t =>
      simp only [Item.Legal] at hl
      exact plainC_text hl ih
    | comment b =>
      simp only [Item.Legal, Item.print] at hl ⊢
      have e : b!"<!--" ++ b ++ b!"-->" ++ printAll l = b!"<!--" ++ (b ++ (b!"-->" ++ printAll l)) := by simp
      rw [e, charsOf_ascii (by decide), charsOf_mid _ (by decide) (by decide)]
      refine .comment (fun h => hl ?_) ih
      obtain ⟨x, y, hxy⟩ := h
      have := charsOf_flatten b
      rw [hxy] at this
      exact ⟨x.flatten, y.flatten, by rw [← this]; simp⟩
    | doctype w b =>
      simp only [Item.Legal, Item.print] at hl ⊢
      have e : b!"<!" ++ w ++ b ++ b!">" ++ printAll l = (b!"<!" ++ w) ++ (b ++ (b!">" ++ printAll l)) := by simp
      have hw := doctype_bytes hl.1
      rw [e, charsOf_ascii, charsOf_mid _ (by decide) (by decide), List.map_append]
      · refine .doctype hl.1 (fun h => hl.2 ?_) ih
        have := charsOf_flatten b
        rw [← this]
        exact List.mem_flatten.2 ⟨_, h, by simp⟩
      · intro c hc
        rcases List.mem_append.1 hc with hc | hc
        · simp at hc; omega
        · have := (hw c hc).1; omega
    | elem _ _ _ => cases h0
    | void _ => cases h0
    | selfClosed _ => cases h0

theorem Plain.nil : Plain [] := ⟨[], by simp, trivial, rfl⟩

theorem Plain.cons {it : Item} {t : Str} (h0 : it.isElement = false) (hl : it.Legal []) (h : Plain t) :
    Plain (it.print ++ t) := by
  obtain ⟨items, h1, h2, rfl⟩ := h
  refine ⟨it :: items, ?_, ?_, rfl⟩
  · intro x hx
    rcases List.mem_cons.1 hx with rfl | hx
    · exact h0
    · exact h1 x hx
  · simp only [AllLegal]; exact ⟨hl, h2⟩

theorem group_sixty {c : Str} (h : (∃ b, b < 192 ∧ c = [b]) ∨ ∃ b cs, 192 ≤ b ∧ c = b :: cs ∧ (∀ x ∈ cs, isCont x = true) ∧ True)
    {a : Nat} (ha : a < 128) (hc : c ≠ [a]) : a ∉ c := by
  rcases h with ⟨b, _, rfl⟩ | ⟨b, cs, hb, rfl, hcs, -⟩
  · intro hm; simp at hm; subst hm; exact hc rfl
  · intro hm
    rcases List.mem_cons.1 hm with h | h
    · omega
    · have := hcs _ h
      simp [isCont] at this
      omega

theorem Groups.byte {l : List Str} (h : Groups l) {a : Nat} (ha : a < 128) (hl : [a] ∉ l) : a ∉ l.flatten := by
  intro hm
  obtain ⟨c, hc, hac⟩ := List.mem_flatten.1 hm
  induction l with
  | nil => cases hc
  | cons d l ih =>
    rcases List.mem_cons.1 hc with rfl | hc
    · refine group_sixty ?_ ha (fun e => hl (by rw [e]; exact List.mem_cons_self)) hac
      rcases h.1 with h1 | ⟨x, cs, h1, h2, h3, _⟩
      · exact .inl h1
      · exact .inr ⟨x, cs, h1, h2, h3, trivial⟩
    · exact ih h.2 (fun e => hl (List.mem_cons_of_mem _ e)) (List.mem_flatten.2 ⟨c, hc, hac⟩) hc

theorem PlainC.bytes {l : List Str} (h : PlainC l) (hg : Groups l) : Plain l.flatten := by
  induction h with
  | nil => exact Plain.nil
  | char hc _ ih =>
    rename_i c l _
    rw [List.flatten_cons]
    refine Plain.cons (it := .text c) rfl ?_ (ih hg.2)
    simp only [Item.Legal]
    refine group_sixty ?_ (by omega) hc
    rcases hg.1 with h1 | ⟨x, cs, h1, h2, h3, _⟩
    · exact .inl h1
    · exact .inr ⟨x, cs, h1, h2, h3, trivial⟩
  | comment hb _ ih =>
    rename_i b l _
    have hg : Groups (([60] :: [33] :: [45] :: [45] :: []) ++ (b ++ (([45] :: [45] :: [62] :: []) ++ l))) := by simpa using hg
    have e : ([60] :: [33] :: [45] :: [45] :: (b ++ [45] :: [45] :: [62] :: l)).flatten =
        (Item.comment b.flatten).print ++ l.flatten := by simp [Item.print]
    rw [e]
    refine Plain.cons rfl ?_ (ih hg.right.right.right)
    simp only [Item.Legal]
    rintro ⟨x, y, hxy⟩
    refine hb ?_
    rw [← charsOf_groups_flatten hg.right.left, hxy, List.append_assoc, charsOf_mid _ (by decide) (by decide)]
    exact ⟨_, _, rfl⟩
  | doctype hw hb _ ih =>
    rename_i w b l _
    have hg : Groups (([60] :: [33] :: w.map (fun b => [b])) ++ (b ++ ([[62]] ++ l))) := by simpa using hg
    have e : ([60] :: [33] :: (w.map (fun b => [b]) ++ (b ++ [62] :: l))).flatten =
        (Item.doctype w b.flatten).print ++ l.flatten := by
      have : (w.map (fun b => [b])).flatten = w := by rw [← List.flatMap_def]; simp
      simp [Item.print, this]
    rw [e]
    refine Plain.cons rfl ?_ (ih hg.right.right.right)
    simp only [Item.Legal]
    exact ⟨hw, hg.right.left.byte (by omega) hb⟩

/-- Whether a text can be between elements depends on its words. -/
theorem plain_of_words {s g : Str} (h : words s = words g) (hg : Plain g) : Plain s := by
  have h1 := (PlainC.collapse ((plainC_trim _).2 hg.chars))
  rw [← charsOf_tidy, ← tidy_of_words h, charsOf_tidy] at h1
  have h2 := (plainC_trim _).1 (h1.uncollapse rfl)
  have := h2.bytes (charsOf_groups s)
  rwa [charsOf_flatten] at this

end Html
