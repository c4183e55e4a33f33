import Verif.Proof.SelMoved
import Verif.Props.Moved
import Verif.Props.SelectionRange

/-!
# C98: selection ranges of a document with text put in front
-/

namespace Html.Props
open Html Html.Spec

section
variable (u : Uni) (cs : Bool) (void : List Str) (pre : Str) (front roots roots' : List Node) (e p : Pos) (d d' : TextDoc)
  (a b : Node) (s : SelRange)

/-- C98: the text in front has elements, and the cursor is not in an element without end tag.  Then the chain at the moved
position is the moved chain, but its last range, around all elements, now begins with the first element in front. -/
theorem C98_outer_grows (hc : ClosedText u cs void pre front) (hb : PutBehind pre e d d')
    (h : parse u cs void d.text = .ok roots) (h' : parse u cs void d'.text = .ok roots')
    (ha : roots.head? = some a) (hl : roots.getLast? = some b) (hf : front ≠ [])
    (hu : ¬ InUnclosed roots (d.offsetAt p)) (hs : getSelectionRanges u cs d roots [p] = .ok [s]) :
    ∃ s' f l, getSelectionRanges u cs d' roots' [Pos.after e p] = .ok [s'] ∧ front.head? = some f ∧
      (chainRanges s = l ∨ chainRanges s = l ++ [⟨d.posAt a.start, d.posAt b.stop⟩]) ∧
      chainRanges s' = l.map (Range.after e) ++ [⟨d'.posAt f.start, Pos.after e (d.posAt b.stop)⟩] := by
  have hs : selectionRange u cs d roots p = .ok s := (mapM_ok.1 hs).2 0 (by simp) (by simp)
  obtain ⟨s', h1, h2⟩ := selection_moved hc hb h h' ha hl hs
  refine ⟨s', ?_⟩
  have h1 : getSelectionRanges u cs d' roots' [Pos.after e p] = .ok [s'] := one_selection h1
  rcases h2 with ⟨h2 | h2, _⟩ | ⟨f, l, h2, _, h3, h4⟩
  · exact absurd h2 hf
  · exact absurd h2 hu
  · exact ⟨f, l, h1, h2, h3, by rw [h4, hb.pos]⟩

/-- C98: if there is no element in front, the whole chain is moved. -/
theorem C98_moved (hc : ClosedText u cs void pre []) (hb : PutBehind pre e d d')
    (h : parse u cs void d.text = .ok roots) (h' : parse u cs void d'.text = .ok roots') (hr : roots ≠ [])
    (hs : getSelectionRanges u cs d roots [p] = .ok [s]) :
    ∃ s', getSelectionRanges u cs d' roots' [Pos.after e p] = .ok [s'] ∧
      chainRanges s' = (chainRanges s).map (Range.after e) := by
  have hs : selectionRange u cs d roots p = .ok s := (mapM_ok.1 hs).2 0 (by simp) (by simp)
  obtain ⟨a, ha⟩ : ∃ a, roots.head? = some a := by cases roots with | nil => exact absurd rfl hr | cons x _ => exact ⟨x, rfl⟩
  obtain ⟨s', h1, h2⟩ := selection_moved hc hb h h' ha (List.getLast?_eq_some_getLast hr) hs
  refine ⟨s', one_selection h1, ?_⟩
  rcases h2 with ⟨_, h2⟩ | ⟨f, l, h2, _⟩
  · exact h2
  · cases h2

/-- C98: the same in an element without end tag. -/
theorem C98_unclosed (hc : ClosedText u cs void pre front) (hb : PutBehind pre e d d')
    (h : parse u cs void d.text = .ok roots) (h' : parse u cs void d'.text = .ok roots')
    (hu : InUnclosed roots (d.offsetAt p)) (hs : getSelectionRanges u cs d roots [p] = .ok [s]) :
    ∃ s', getSelectionRanges u cs d' roots' [Pos.after e p] = .ok [s'] ∧
      chainRanges s' = (chainRanges s).map (Range.after e) := by
  have hs : selectionRange u cs d roots p = .ok s := (mapM_ok.1 hs).2 0 (by simp) (by simp)
  obtain ⟨s', h1, h2⟩ := selection_unclosed hc hb h h' hu hs
  exact ⟨s', one_selection h1, h2⟩

end

/-- The cursor is in the content of the `i`; a line break and a `b` are put in front.  The range of the `i`, which was also
the last one, stays in the chain. -/
example (u : Uni) (cs : Bool) :
    (∃ roots, parse u cs [] b!"<i>x</i>" = .ok roots ∧ roots ≠ [] ∧
      (getSelectionRanges u cs (.ref b!"<i>x</i>") roots [⟨0, 3⟩]).map (List.map chainRanges) =
        .ok [[⟨⟨0, 3⟩, ⟨0, 4⟩⟩, ⟨⟨0, 0⟩, ⟨0, 8⟩⟩]]) ∧
    (∃ roots', parse u cs [] (b!"\n<b/>" ++ b!"<i>x</i>") = .ok roots' ∧
      (getSelectionRanges u cs (.ref (b!"\n<b/>" ++ b!"<i>x</i>")) roots' [⟨1, 7⟩]).map (List.map chainRanges) =
        .ok [[⟨⟨1, 7⟩, ⟨1, 8⟩⟩, ⟨⟨1, 4⟩, ⟨1, 12⟩⟩, ⟨⟨1, 0⟩, ⟨1, 12⟩⟩]]) := by
  refine ⟨⟨[⟨some b!"i", 0, 8, [], true, some 3, some 4, []⟩], by cases cs <;> krfl, by simp, by cases cs <;> krfl⟩,
    ⟨[⟨some b!"b", 1, 5, [], true, some 5, none, []⟩, ⟨some b!"i", 5, 13, [], true, some 8, some 9, []⟩],
      by cases cs <;> krfl, by cases cs <;> krfl⟩⟩

/-- C98: in an element without end tag the chain is only that element, so no range covers the elements in front. -/
theorem C98_unclosed_alone (u : Uni) (cs : Bool) :
    ∃ roots roots', parse u cs [] b!"<i>x" = .ok roots ∧ InUnclosed roots 3 ∧
      parse u cs [] (b!"\n<b/>" ++ b!"<i>x") = .ok roots' ∧
      (getSelectionRanges u cs (.ref b!"<i>x") roots [⟨0, 3⟩]).map (List.map chainRanges) =
        .ok [[⟨⟨0, 0⟩, ⟨0, 4⟩⟩]] ∧
      (getSelectionRanges u cs (.ref (b!"\n<b/>" ++ b!"<i>x")) roots' [⟨1, 7⟩]).map (List.map chainRanges) =
        .ok [[⟨⟨1, 4⟩, ⟨1, 8⟩⟩]] := by
  refine ⟨[⟨some b!"i", 0, 4, [], false, some 3, none, []⟩],
    [⟨some b!"b", 1, 5, [], true, some 5, none, []⟩, ⟨some b!"i", 5, 9, [], false, some 8, none, []⟩],
    by cases cs <;> krfl, ?_, by cases cs <;> krfl, by cases cs <;> krfl, by cases cs <;> krfl⟩
  exact ⟨⟨some b!"i", 0, 4, [], false, some 3, none, []⟩, 3, .root (by simp), by decide, by simp, rfl, by decide, rfl⟩

end Html.Props
