import Verif.Proof.Cut
import Verif.Proof.Settle
import Verif.Props.Insert

/-! # What is in front of a place between tags does not depend on what is behind (C80) -/

namespace Html.Props
open Html Html.Spec

/-- C80: the tree of a text that ends in content is that of any text that goes on from there, cut off at this place. -/
theorem C80_prefix (u : Uni) (cs : Bool) (void : List Str) (a x : Str) (roots roots' : List Node) (ha : EndsInContent u cs a)
    (h : parse u cs void a = .ok roots) (h' : parse u cs void (a ++ x) = .ok roots') : roots = cutAll a.length roots' := by
  have h1 := parse_cut (x := x) (y := []) ha h' (by rw [List.append_nil]; exact h)
  rw [h1, parse_cut_self ha h]

/-- C80: so an edit behind a place in content leaves everything in front of this place as it is. -/
theorem C80_edit (u : Uni) (cs : Bool) (void : List Str) (a x y : Str) (roots roots' : List Node) (ha : EndsInContent u cs a)
    (h : parse u cs void (a ++ x) = .ok roots) (h' : parse u cs void (a ++ y) = .ok roots') :
    cutAll a.length roots' = cutAll a.length roots :=
  parse_cut ha h' h

/-- C80: a UTF-8 text that ends in content is always parsed, so its tree is the one cut off whenever that of the longer
text exists. -/
theorem C80_parsed (u : Uni) (cs : Bool) (void : List Str) (a : Str) (cps : List Nat) (ha : EndsInContent u cs a)
    (hu : Utf8 cps a) :
    ∃ roots, parse u cs void a = .ok roots ∧
      ∀ x roots', parse u cs void (a ++ x) = .ok roots' → roots = cutAll a.length roots' := by
  cases h : parse u cs void a with
  | ok roots => exact ⟨roots, rfl, fun x roots' h' => C80_prefix u cs void a x roots roots' ha h h'⟩
  | error e =>
    have h1 := (broken_iff (void := void) hu).2 ⟨e, h⟩
    rw [← List.append_nil a] at h1 hu
    have h2 := (content_broken ha hu).1 h1
    obtain ⟨e', h3⟩ := (broken_iff (void := void) (src := []) (cps := []) ⟨by simp, rfl⟩).1 h2
    obtain ⟨r, h4⟩ := C11_ascii_never_panics u cs void [] (by simp [isAscii])
    rw [h4] at h3
    cases h3

/-- C80: whether the longer text is parsed depends only on what is behind the place. -/
theorem C80_panics_behind (u : Uni) (cs : Bool) (void : List Str) (a x : Str) (cps cps' : List Nat) (ha : EndsInContent u cs a)
    (hu : Utf8 cps (a ++ x)) (hx : Utf8 cps' x) :
    (∃ roots, parse u cs void (a ++ x) = .ok roots) ↔ ∃ roots, parse u cs void x = .ok roots := by
  have h := content_broken ha hu
  rw [broken_iff (void := void) hu, broken_iff (void := void) hx] at h
  cases h1 : parse u cs void (a ++ x) <;> cases h2 : parse u cs void x <;> simp [h1, h2] at h ⊢

/-- C80: an element that is complete in front of the place is also in the tree of the other text, exactly as it is. -/
theorem C80_kept (u : Uni) (cs : Bool) (void : List Str) (a x y : Str) (roots roots' : List Node) (n : Node)
    (ha : EndsInContent u cs a) (h : parse u cs void (a ++ x) = .ok roots) (h' : parse u cs void (a ++ y) = .ok roots')
    (hn : InForest roots n) (h1 : n.stop < a.length ∨ n.stop = a.length ∧ n.closed = true) : InForest roots' n := by
  have hlt := (parse_done h hn).lt
  obtain ⟨m, h2, h3, h4⟩ := cut_transfer ha h h' hn (by rcases h1 with h1 | h1 <;> omega)
  have ho : ¬ OpenAt a.length n := by
    rintro ⟨_, h5 | ⟨h5, h6⟩⟩
    · rcases h1 with h1 | h1 <;> omega
    · rcases h1 with h1 | ⟨_, h1⟩
      · omega
      · rw [h6.1] at h1; cases h1
  unfold cutImage at h4
  rw [if_neg ho] at h4
  split at h4
  · rw [cutNode_eq] at h4
    rw [← h4] at h1
    rcases h1 with h1 | ⟨_, h1⟩
    · exact absurd h1 (Nat.lt_irrefl _)
    · cases h1
  · rw [h4] at h2; exact h2

/-- C80: and of an element that is open at the place the other tree has one with the same start tag, that reaches the
place too. -/
theorem C80_open (u : Uni) (cs : Bool) (void : List Str) (a x y : Str) (roots roots' : List Node) (n : Node)
    (ha : EndsInContent u cs a) (h : parse u cs void (a ++ x) = .ok roots) (h' : parse u cs void (a ++ y) = .ok roots')
    (hn : InForest roots n) (ho : n.start < a.length) (h1 : a.length < n.stop) :
    ∃ m, InForest roots' m ∧ m.start = n.start ∧ m.tag = n.tag ∧ m.startTagEnd = n.startTagEnd ∧
      m.attributes = n.attributes ∧ a.length ≤ m.stop := by
  obtain ⟨m, h2, h3, h4⟩ := cut_transfer ha h h' hn ho
  refine ⟨m, h2, ?_⟩
  unfold cutImage at h4
  rw [if_pos (show OpenAt a.length n from ⟨ho, .inl h1⟩), cutNode_eq n] at h4
  split at h4
  · rename_i hm
    rw [cutNode_eq m] at h4
    refine ⟨(Node.mk.inj h4).2.1, (Node.mk.inj h4).1, (Node.mk.inj h4).2.2.2.2.2.1, (Node.mk.inj h4).2.2.2.2.2.2.2, ?_⟩
    rcases hm.2 with h5 | h5
    · exact Nat.le_of_lt h5
    · exact Nat.le_of_eq h5.1
  · rw [h4]
    exact ⟨rfl, rfl, rfl, rfl, Nat.le_refl _⟩

/-- Behind `<p><i></i>a` an element is opened and the `p` is closed; the tree is that of the shorter text, cut. -/
example (u : Uni) (cs : Bool) :
    parse u cs [] (b!"<p><i></i>a" ++ b!"<q></p>") = .ok [⟨some b!"p", 0, 18,
      [⟨some b!"i", 3, 10, [], true, some 6, some 6, []⟩, ⟨some b!"q", 11, 14, [], false, some 14, none, []⟩], true,
      some 3, some 14, []⟩] ∧
    parse u cs [] b!"<p><i></i>a" = .ok [⟨some b!"p", 0, 11, [⟨some b!"i", 3, 10, [], true, some 6, some 6, []⟩], false,
      some 3, none, []⟩] ∧
    EndsInContent u cs b!"<p><i></i>a" :=
  ⟨by cases cs <;> krfl, by cases cs <;> krfl, exEndsInContent u cs⟩

/-- The place has to be in content: in a start tag the element may still get attributes. -/
theorem C80_needs_content (u : Uni) (cs : Bool) :
    parse u cs [] b!"<p" = .ok [⟨some b!"p", 0, 2, [], false, none, none, []⟩] ∧
    ∃ roots, parse u cs [] (b!"<p" ++ b!" a>") = .ok roots ∧
      (cutAll 2 roots).map (·.attributes) = [[(b!"a", ⟨none, 3⟩)]] := by
  refine ⟨by cases cs <;> krfl,
    [⟨some b!"p", 0, 5, [], false, some 5, none, [(b!"a", ⟨none, 3⟩)]⟩], by cases cs <;> krfl, by krfl⟩

end Html.Props
