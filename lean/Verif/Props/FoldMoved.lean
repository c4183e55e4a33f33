import Verif.Proof.FoldMoved
import Verif.Props.Moved
import Verif.Props.Kept

/-! # C97: the folding ranges of complete parts add up -/

namespace Html.Props
open Html Html.Spec

/-- C97: if a text ends with the `>` of a tag, a comment or a doctype, and in it every start tag has its end tag and every start
of a region its end, then the folding ranges of a document behind it are those of the text and then those of the document
alone, as many lines further down as the text has line breaks. -/
theorem C97_folding (u : Uni) (cs : Bool) (void : List Str) (pre : Str) (d0 d d' : TextDoc) (i : List Tok) (t : Tok)
    (ranges' : List Fold) (h0 : d0.text = pre) (hd : Lawful d0) (ha : BeginAlike pre d0 d')
    (hb : PutBehind pre (d0.posAt pre.length) d d') (he : EndsBracket ⟨u, pre, false, cs⟩ 0 .WithinContent i t)
    (hs : t.state = .WithinContent) (hbal : Balanced u pre void (i ++ [t]))
    (h : getFoldingRanges u cs void d' none = .ok ranges') :
    ∃ front ranges, getFoldingRanges u cs void d0 none = .ok front ∧ getFoldingRanges u cs void d none = .ok ranges ∧
      ranges' = front ++ ranges.map (Fold.down (d0.posAt pre.length).line) :=
  folding_moved h0 hd ha hb he hs hbal h

/-- C97: for documents of the reference implementation there are no conditions on positions. -/
theorem C97_reference (u : Uni) (cs : Bool) (void : List Str) (pre x : Str) (i : List Tok) (t : Tok) (ranges' : List Fold)
    (he : EndsBracket ⟨u, pre, false, cs⟩ 0 .WithinContent i t) (hs : t.state = .WithinContent)
    (hbal : Balanced u pre void (i ++ [t])) (h : getFoldingRanges u cs void (.ref (pre ++ x)) none = .ok ranges') :
    ∃ front ranges, getFoldingRanges u cs void (.ref pre) none = .ok front ∧
      getFoldingRanges u cs void (.ref x) none = .ok ranges ∧
      ranges' = front ++ ranges.map (Fold.down (refPosAt pre pre.length).line) := by
  refine C97_folding u cs void pre (.ref pre) (.ref x) (.ref (pre ++ x)) i t ranges' rfl (C50_reference_document_lawful pre)
    (C95_reference u cs pre x i t he) (ref_behind ?_) he hs hbal h
  obtain ⟨y, hy, _⟩ := he.split
  have hy : pre = y ++ [62] := hy
  rw [hy]; simp

/-- The front has an element on three lines; the document begins on the last of them. -/
example (u : Uni) (cs : Bool) : EndsBracket ⟨u, b!"<p>\n\n</p>", false, cs⟩ 0 .WithinContent
      [⟨.StartTagOpen, 0, 1, none, .AfterOpeningStartTag⟩, ⟨.StartTag, 1, 2, none, .WithinTag⟩,
        ⟨.StartTagClose, 2, 3, none, .WithinContent⟩, ⟨.Content, 3, 5, none, .WithinContent⟩,
        ⟨.EndTagOpen, 5, 7, none, .AfterOpeningEndTag⟩, ⟨.EndTag, 7, 8, none, .WithinEndTag⟩]
      ⟨.EndTagClose, 8, 9, none, .WithinContent⟩ ∧
    Balanced u b!"<p>\n\n</p>" [] [⟨.StartTagOpen, 0, 1, none, .AfterOpeningStartTag⟩, ⟨.StartTag, 1, 2, none, .WithinTag⟩,
        ⟨.StartTagClose, 2, 3, none, .WithinContent⟩, ⟨.Content, 3, 5, none, .WithinContent⟩,
        ⟨.EndTagOpen, 5, 7, none, .AfterOpeningEndTag⟩, ⟨.EndTag, 7, 8, none, .WithinEndTag⟩,
        ⟨.EndTagClose, 8, 9, none, .WithinContent⟩] ∧
    getFoldingRanges u cs [] (.ref b!"<p>\n\n</p>") none = .ok [⟨0, 1, none⟩] ∧
    getFoldingRanges u cs [] (.ref b!"<i>\n\n</i>") none = .ok [⟨0, 1, none⟩] ∧
    getFoldingRanges u cs [] (.ref (b!"<p>\n\n</p>" ++ b!"<i>\n\n</i>")) none = .ok [⟨0, 1, none⟩, ⟨2, 3, none⟩] := by
  refine ⟨⟨⟨b!"<p>\n\n</p>", by decide, rfl⟩, by cases cs <;> krfl, rfl, by decide⟩, ?_, ?_⟩
  · have n1 : Neutral u b!"<p>\n\n</p>" ⟨.StartTagOpen, 0, 1, none, .AfterOpeningStartTag⟩ :=
      ⟨by decide, by decide, by decide, by decide, by decide, fun h => by cases h⟩
    have n2 : Neutral u b!"<p>\n\n</p>" ⟨.Content, 3, 5, none, .WithinContent⟩ :=
      ⟨by decide, by decide, by decide, by decide, by decide, fun h => by cases h⟩
    have n3 : Neutral u b!"<p>\n\n</p>" ⟨.EndTagOpen, 5, 7, none, .AfterOpeningEndTag⟩ :=
      ⟨by decide, by decide, by decide, by decide, by decide, fun h => by cases h⟩
    exact .skip n1 (.pair (as := []) (bs := []) (body := [⟨.Content, 3, 5, none, .WithinContent⟩,
        ⟨.EndTagOpen, 5, 7, none, .AfterOpeningEndTag⟩]) rfl (by simp) rfl (by simp) (.skip n2 (.skip n3 .nil)) rfl rfl (by simp)
      rfl .nil)
  · rw [folding_ref, folding_ref, folding_ref]
    refine ⟨?_, ?_, ?_⟩ <;> cases cs <;> krfl

/-- C97: what the front starts it has to end: a region that is open in front is ended in the document behind it. -/
theorem C97_needs_balanced (u : Uni) (cs : Bool) :
    getFoldingRanges u cs [] (.ref b!"<!--#region-->") none = .ok [] ∧
    getFoldingRanges u cs [] (.ref b!"\n<!--endregion-->") none = .ok [] ∧
    getFoldingRanges u cs [] (.ref (b!"<!--#region-->" ++ b!"\n<!--endregion-->")) none = .ok [⟨0, 1, some .region⟩] := by
  rw [folding_ref, folding_ref, folding_ref]
  refine ⟨?_, ?_, ?_⟩ <;> cases cs <;> krfl

end Html.Props
