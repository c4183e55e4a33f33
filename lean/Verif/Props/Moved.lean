import Verif.Proof.Moved
import Verif.Props.Hover

/-!
# C96: text put in front of a document only moves what the services say
-/

namespace Html.Props
open Html Html.Spec

section
variable (u : Uni) (cs : Bool) (void : List Str) (pre : Str) (front roots roots' : List Node) (e p : Pos) (d d' : TextDoc)

/-- C96: with a complete text put in front of a document, linked editing at the moved position gives the moved ranges. -/
theorem C96_linked_editing (hc : ClosedText u cs void pre front) (hb : PutBehind pre e d d')
    (h : parse u cs void d.text = .ok roots) (h' : parse u cs void d'.text = .ok roots') :
    findLinkedEditingRanges d' (Pos.after e p) roots' =
      (findLinkedEditingRanges d p roots).map (List.map (Range.after e)) :=
  linked_moved hc hb h h'

/-- C96: the matching tag is found at the moved position. -/
theorem C96_matching_tag (hc : ClosedText u cs void pre front) (hb : PutBehind pre e d d')
    (h : parse u cs void d.text = .ok roots) (h' : parse u cs void d'.text = .ok roots') :
    findMatchingTagPosition d' (Pos.after e p) roots' = (findMatchingTagPosition d p roots).map (Pos.after e) :=
  matching_moved hc hb h h'

/-- C96: renaming makes the moved edits. -/
theorem C96_rename (new : Str) (hc : ClosedText u cs void pre front) (hb : PutBehind pre e d d')
    (h : parse u cs void d.text = .ok roots) (h' : parse u cs void d'.text = .ok roots') :
    doRename d' (Pos.after e p) new roots' = (doRename d p new roots).map (List.map (TextEdit.after e)) :=
  rename_moved hc hb h h'

/-- C96: the moved ranges are highlighted, and it panics at the moved positions only where it did before. -/
theorem C96_highlights (hc : ClosedText u cs void pre front) (hb : PutBehind pre e d d')
    (h : parse u cs void d.text = .ok roots) (h' : parse u cs void d'.text = .ok roots') :
    findDocumentHighlights u cs d' (Pos.after e p) roots' =
      (findDocumentHighlights u cs d p roots).map (List.map (Range.after e)) :=
  highlights_moved hc hb h h'

/-- C96: the symbols are those of the text in front and then the moved ones. -/
theorem C96_symbols (hc : ClosedText u cs void pre front) (hb : PutBehind pre e d d')
    (h : parse u cs void d.text = .ok roots) (h' : parse u cs void d'.text = .ok roots') :
    findDocumentSymbols2 d' roots' = findDocumentSymbols2 d' front ++ Symbol.afterAll e (findDocumentSymbols2 d roots) ∧
    findDocumentSymbols d' roots' = findDocumentSymbols d' front ++ (findDocumentSymbols d roots).map (FlatSymbol.after e) :=
  ⟨symbols_moved hc hb h h', flat_moved hc hb h h'⟩

/-- C96: where hovering answered, it gives the same answer with the moved range at the moved position.  No participants, and
the attributes a provider knows of may depend on the element but not on the offset. -/
theorem C96_hover (env : HoverEnv) (a : Option Hover) (hc : ClosedText u cs void pre front) (hb : PutBehind pre e d d')
    (h : parse u cs void d.text = .ok roots) (h' : parse u cs void d'.text = .ok roots') (he : env.participants = [])
    (hv : ∀ q ∈ env.providers, ∀ t i j, q.provideAttributes t i = q.provideAttributes t j)
    (ha : doHover env d p roots = .ok a) : doHover env d' (Pos.after e p) roots' = .ok (a.map (Hover.after e)) :=
  hover_moved hc hb h h' he hv ha

/-- C96: the documents of the reference implementation are such documents; the text in front ends where its end is. -/
theorem C96_reference (x : Str) (hc : ClosedText u cs void pre front) :
    PutBehind pre ((TextDoc.ref pre).posAt pre.length) (.ref x) (.ref (pre ++ x)) :=
  ref_behind (by rw [hc.last_byte]; decide)

end

/-- A line break and an element are put in front of a document. -/
theorem exInFront (u : Uni) (cs : Bool) : ClosedText u cs [] b!"\n<b/>" [⟨some b!"b", 1, 5, [], true, some 5, none, []⟩] where
  tree := by cases cs <;> krfl
  last := ⟨[⟨.Content, 0, 1, none, .WithinContent⟩, ⟨.StartTagOpen, 1, 2, none, .AfterOpeningStartTag⟩,
      ⟨.StartTag, 2, 3, none, .WithinTag⟩], ⟨.StartTagSelfClose, 3, 5, none, .WithinContent⟩,
    ⟨⟨[10, 60, 98, 47, 62], by decide, rfl⟩, by cases cs <;> krfl, by decide, by decide⟩, rfl⟩
  closed := by decide

/-- The tag of the `i` is on the first line, but not at its start, and its end tag is on the second line. -/
example (u : Uni) (cs : Bool) :
    (TextDoc.ref b!"\n<b/>").posAt 5 = ⟨1, 4⟩ ∧
    (∃ roots, parse u cs [] b!"<i>\n</i>" = .ok roots ∧
      findLinkedEditingRanges (.ref b!"<i>\n</i>") ⟨0, 1⟩ roots = some [⟨⟨0, 1⟩, ⟨0, 2⟩⟩, ⟨⟨1, 2⟩, ⟨1, 3⟩⟩]) ∧
    (∃ roots', parse u cs [] (b!"\n<b/>" ++ b!"<i>\n</i>") = .ok roots' ∧ Pos.after ⟨1, 4⟩ ⟨0, 1⟩ = ⟨1, 5⟩ ∧
      findLinkedEditingRanges (.ref (b!"\n<b/>" ++ b!"<i>\n</i>")) ⟨1, 5⟩ roots' =
        some [⟨⟨1, 5⟩, ⟨1, 6⟩⟩, ⟨⟨2, 2⟩, ⟨2, 3⟩⟩]) := by
  refine ⟨by krfl, ⟨[⟨some b!"i", 0, 8, [], true, some 3, some 4, []⟩], by cases cs <;> krfl, by krfl⟩,
    ⟨[⟨some b!"b", 1, 5, [], true, some 5, none, []⟩, ⟨some b!"i", 5, 13, [], true, some 8, some 9, []⟩],
      by cases cs <;> krfl, rfl, by krfl⟩⟩

/-- The environment of the hover examples is as `C96_hover` asks, and there is an answer to move. -/
example : (exHover false).participants = [] ∧
    (∀ q ∈ (exHover false).providers, ∀ t i j, q.provideAttributes t i = q.provideAttributes t j) ∧
    exHoverAt false b!"<a b='c'>" 6 = .ok (some (b!"value", some ⟨⟨0, 5⟩, ⟨0, 8⟩⟩)) ∧
    exHoverAt false (b!"<b/>" ++ b!"<a b='c'>") 10 = .ok (some (b!"value", some ⟨⟨0, 9⟩, ⟨0, 12⟩⟩)) := by
  refine ⟨rfl, ?_, by krfl, by krfl⟩
  intro q hq
  cases hq with
  | head => intro _ _ _; rfl
  | tail _ hq => cases hq

/-- C96: the text in front has to be complete: behind a `<p>` that is open the end tag belongs to it. -/
theorem C96_needs_closed (u : Uni) (cs : Bool) :
    ∃ roots roots', parse u cs [] b!"</p>" = .ok roots ∧ parse u cs [] (b!"<p>" ++ b!"</p>") = .ok roots' ∧
      findMatchingTagPosition (.ref b!"</p>") ⟨0, 2⟩ roots = none ∧
      findMatchingTagPosition (.ref (b!"<p>" ++ b!"</p>")) (Pos.after ⟨0, 3⟩ ⟨0, 2⟩) roots' = some ⟨0, 1⟩ := by
  refine ⟨[], [⟨some b!"p", 0, 7, [], true, some 3, some 3, []⟩], by cases cs <;> krfl, by cases cs <;> krfl, by krfl, by krfl⟩

end Html.Props
