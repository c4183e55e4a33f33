import Verif.Proof.FormatInk

/-! # The service around the formatter -/

namespace Html
open Spec

theorem charsOf_groups_flatten {l : List Str} (h : Groups l) : charsOf l.flatten = l := by
  induction l with
  | nil => rfl
  | cons g l ih =>
    rw [List.flatten_cons, charsOf_cons, ih h.2]
    rcases h.1 with hb | ⟨b, cs, h1, h2, h3, h4⟩
    · exact .inl hb
    · refine .inr ⟨b, cs, h1, h2, h3, ?_⟩
      cases l with
      | nil => exact headOk_nil
      | cons d l => exact h.2.headOk h4 (d := d) (y := l.flatten) rfl

theorem Groups.take {l : List Str} (h : Groups l) (p : Str → Bool) : Groups (l.takeWhile p) := by
  induction l with
  | nil => exact h
  | cons g l ih =>
    rw [List.takeWhile_cons]
    split
    · refine ⟨?_, ih h.2⟩
      rcases h.1 with hb | ⟨b, cs, h1, h2, h3, h4⟩
      · exact .inl hb
      · refine .inr ⟨b, cs, h1, h2, h3, fun d hd => h4 d ?_⟩
        cases l with
        | nil => simp at hd
        | cons e l =>
          rw [List.takeWhile_cons] at hd
          split at hd
          · simpa using hd
          · simp at hd
    · trivial

theorem trimLeftStr_trimmed (s : Str) : Trimmed s (trimLeftStr s) := by
  have hg := charsOf_groups s
  unfold trimLeftStr trimLeftC
  refine ⟨((charsOf s).takeWhile isBlankChar).flatten, ?_, ?_, ?_⟩
  · rw [← List.flatten_append, List.takeWhile_append_dropWhile, charsOf_flatten]
  · unfold Blank
    rw [charsOf_groups_flatten (hg.take _)]
    exact fun c hc => mem_takeWhile hc
  · rw [charsOf_groups_flatten (hg.drop _)]
    exact fun c hc => head_dropWhile hc

theorem trimLeftStr_drop (s : Str) : ∃ k, k ≤ s.length ∧ trimLeftStr s = s.drop k := by
  obtain ⟨w, h, _⟩ := trimLeftStr_trimmed s
  refine ⟨w.length, ?_, ?_⟩
  · have := congrArg List.length h; rw [List.length_append] at this; omega
  · conv => rhs; rw [h]
    rw [List.drop_left]

theorem AsciiNext.drop {src : Str} (h : AsciiNext src) {k : Nat} (hk : k ≤ src.length) : AsciiNext (src.drop k) := by
  intro i b hi hb
  rw [List.getElem?_drop] at hi
  rw [isBoundary_drop hk]
  exact h (k + i) b hi hb

theorem asciiNext_trim {src : Str} (h : AsciiNext src) : AsciiNext (trimLeftStr src) := by
  obtain ⟨k, hk, e⟩ := trimLeftStr_drop src
  rw [e]; exact h.drop hk

theorem isAscii_trim {src : Str} (h : isAscii src) : isAscii (trimLeftStr src) := by
  obtain ⟨k, hk, e⟩ := trimLeftStr_drop src
  rw [e]
  exact fun b hb => h b (List.mem_of_mem_drop hb)

/-- A start tag is opened only where no end tag, comment or doctype starts. -/
theorem Step.openNext {c : Cfg} {s s' : Sc} (h : Step c s s') (ht : s'.tokenType = .StartTagOpen) :
    (b!"</").isPrefixOf (c.src.drop s'.tok.offset) = false ∧ (b!"<!--").isPrefixOf (c.src.drop s'.tok.offset) = false ∧
    (b!"<!doctype").isPrefixOf ((c.src.drop s'.tok.offset).map lowerByte) = false := by
  cases h with
  | content _ _ _ hx =>
    cases hx with
    | startTagOpen h h2 h3 h4 => exact ⟨h2, h3, h4⟩
    | _ => cases ht
  | endTag _ h hs hx => cases hx <;> cases ht
  | scriptContent _ _ _ _ hx =>
    cases hx with
    | startTagOpen h h2 h3 h4 => exact ⟨h2, h3, h4⟩
    | _ => cases ht
  | styleContent _ _ _ _ _ hx =>
    cases hx with
    | startTagOpen h h2 h3 h4 => exact ⟨h2, h3, h4⟩
    | _ => cases ht
  | tag _ _ _ hx => cases hx <;> cases ht
  | afterNameTag _ _ _ _ _ hx => cases hx <;> cases ht
  | valueTag _ _ _ _ _ _ _ hx => cases hx <;> cases ht
  | _ => cases ht

mutual
theorem mem_preNode {n m : Node} (h : InForest [n] m) : m.start ∈ preNode n := by
  match n, h with
  | ⟨tag, start, stop, children, closed, ste, ets, attrs⟩, h =>
    have key : ∀ m, InForest [⟨tag, start, stop, children, closed, ste, ets, attrs⟩] m →
        m = ⟨tag, start, stop, children, closed, ste, ets, attrs⟩ ∨ InForest children m := by
      intro m h
      induction h with
      | root hr => left; simpa using hr
      | @child m n hm hc ih =>
        rcases ih with rfl | hm
        · exact .inr (.root hc)
        · exact .inr (.child hm hc)
    unfold preNode
    rcases key m h with rfl | h
    · exact List.mem_cons_self
    · exact List.mem_cons_of_mem _ (mem_preorder h)
theorem mem_preorder {l : List Node} {m : Node} (h : InForest l m) : m.start ∈ preorder l := by
  match l, h with
  | [], h =>
    have key : ∀ m, InForest [] m → False := by
      intro m h
      induction h with
      | root hr => cases hr
      | child _ _ ih => exact ih
    exact (key m h).elim
  | n :: l, h =>
    have key : ∀ m, InForest (n :: l) m → InForest [n] m ∨ InForest l m := by
      intro m h
      induction h with
      | root hr =>
        rcases List.mem_cons.1 hr with rfl | hr
        · exact .inl (.root List.mem_cons_self)
        · exact .inr (.root hr)
      | child _ hc ih =>
        rcases ih with h | h
        · exact .inl (.child h hc)
        · exact .inr (.child h hc)
    unfold preorder
    rw [List.mem_append]
    rcases key m h with h | h
    · exact .inl (mem_preNode h)
    · exact .inr (mem_preorder h)
end

/-- A node starts neither at an end tag nor at a comment or a doctype. -/
theorem parse_open {u : Uni} {cs : Bool} {void : List Str} {src : Str} {roots : List Node} {n : Node}
    (h : parse u cs void src = .ok roots) (hn : InForest roots n) :
    (b!"</").isPrefixOf (src.drop n.start) = false ∧ (b!"<!--").isPrefixOf (src.drop n.start) = false ∧
    (b!"<!doctype").isPrefixOf ((src.drop n.start).map lowerByte) = false := by
  obtain ⟨ts, h1, h2⟩ := Props.C13_one_node_per_bracket u cs void src roots h
  have hm := mem_preorder hn
  rw [h2] at hm
  obtain ⟨t, ht, he⟩ := List.mem_map.1 hm
  rw [List.mem_filter] at ht
  obtain ⟨s2, hr, _⟩ := tokens_run h1
  obtain ⟨s0, s1, hs, _, rfl⟩ := hr.mem ht.1
  have := hs.openNext (of_decide_eq_true ht.2)
  rw [he] at this
  exact this

/-! ### Ranges -/

theorem extendStart_spec (text : Str) (i : Nat) :
    extendStart text i ≤ i ∧ (∀ j, extendStart text i ≤ j → j < i → isBlankAt text j = true) ∧
    (extendStart text i = 0 ∨ isBlankAt text (extendStart text i - 1) = false) := by
  induction i with
  | zero => exact ⟨Nat.le_refl _, fun j _ h => absurd h (by omega), .inl rfl⟩
  | succ i ih =>
    unfold extendStart
    split
    · rename_i hb
      refine ⟨by omega, fun j h1 h2 => ?_, ih.2.2⟩
      by_cases hj : j = i
      · rw [hj]; exact hb
      · exact ih.2.1 j h1 (by omega)
    · rename_i hb
      exact ⟨Nat.le_refl _, fun j h1 h2 => absurd h2 (by omega), .inr (by simpa using hb)⟩

theorem extendEnd_spec (text : Str) (fuel i : Nat) (h : text.length ≤ i + fuel) :
    i ≤ extendEnd text fuel i ∧ (∀ j, i ≤ j → j < extendEnd text fuel i → isBlankAt text j = true) ∧
    isBlankAt text (extendEnd text fuel i) = false := by
  have hend : ∀ k, text.length ≤ k → isBlankAt text k = false := by
    intro k hk
    have : sliceStr text k (k + 1) = .error .slice := by
      unfold sliceStr
      rw [if_neg (by simp; omega)]
    unfold isBlankAt
    rw [this]
    rfl
  induction fuel generalizing i with
  | zero => exact ⟨Nat.le_refl _, fun j h1 h2 => absurd h2 (by simp only [extendEnd]; omega), hend i (by omega)⟩
  | succ f ih =>
    unfold extendEnd
    split
    · rename_i hb
      obtain ⟨h1, h2, h3⟩ := ih (i + 1) (by omega)
      refine ⟨by omega, fun j h4 h5 => ?_, h3⟩
      by_cases hj : j = i
      · rw [hj]; exact hb
      · exact h2 j (by omega) h5
    · rename_i hb
      exact ⟨Nat.le_refl _, fun j h1 h2 => absurd h2 (by omega), by simpa using hb⟩

theorem isBlankAt_iff {text : Str} {i : Nat} (h : isBlankAt text i = true) :
    text[i]? = some 32 ∨ text[i]? = some 9 := by
  unfold isBlankAt at h
  cases hs : sliceStr text i (i + 1) with
  | error e => rw [hs] at h; simp [Except.toOption] at h
  | ok x =>
    obtain ⟨h1, h2, h3, h4, h5⟩ := sliceStr_ok hs
    rw [hs] at h
    simp [Except.toOption] at h
    have : (bytesIn text i (i + 1))[0]? = text[i]? := by
      rw [bytesIn_getElem?]; simp
    rw [← this, ← h5]
    rcases h with rfl | rfl <;> simp

end Html
