import Verif.Proof.Folding
import Verif.Proof.FoldLimit
import Verif.Proof.FoldPanics
import Verif.Proof.FoldElements
import Verif.Props.Scanner
import Verif.Props.TextDocument

/-!
# Properties of folding ranges (C32-C34)
-/

namespace Html.Props
open Html Spec

/-! ### C32 -/

/-- C32: every folding range, with or without limit, has at least two lines, lies inside the
document, and is justified by the tokens of the text: it goes from the line of a start tag to the line
before the one where a tag with the same name ends the element, or from a `#region` comment to a later
`endregion` comment, or over a comment. -/
theorem C32_ranges_justified (u : Uni) (cs : Bool) (void : List Str) (d : TextDoc) (limit : Option Nat)
    (rs : List Fold) (hd : Lawful d) (h : getFoldingRanges u cs void d limit = .ok rs) :
    ∃ ts, tokens ⟨u, d.text, false, cs⟩ (.new 0 .WithinContent) = .ok ts ∧
      ∀ r ∈ rs, Justified u d void ts r ∧ r.startLine < r.endLine ∧
        r.endLine ≤ (d.posAt d.text.length).line := by
  unfold getFoldingRanges at h
  obtain ⟨f, h1, h2⟩ := bind_ok h
  obtain ⟨ts, h3, h4⟩ := folding_inv hd h1
  refine ⟨ts, h3, fun r hr => h4.ranges r ?_⟩
  split at h2
  · cases h2; exact hr
  · split at h2
    · exact (sortFolds_perm _).mem_iff.1 ((limitRanges_sublist h2).subset hr)
    · cases h2; exact hr

/-- C32: every comment over several lines that is not a region marker can be folded. -/
theorem C32_comments_complete (u : Uni) (cs : Bool) (void : List Str) (d : TextDoc)
    (rs : List Fold) (ts : List Tok) (a : Tok) (hd : Lawful d)
    (h : getFoldingRanges u cs void d none = .ok rs)
    (ht : tokens ⟨u, d.text, false, cs⟩ (.new 0 .WithinContent) = .ok ts)
    (ha : a ∈ ts) (hc : a.type = .Comment) (h1 : ¬ RegionStart u (text d.text a))
    (h2 : ¬ RegionEnd u (text d.text a))
    (hl : (d.posAt a.offset).line < (d.posAt (a.stop + 3)).line) :
    ⟨(d.posAt a.offset).line, (d.posAt (a.stop + 3)).line, some .comment⟩ ∈ rs := by
  unfold getFoldingRanges at h
  obtain ⟨f, h3, h4⟩ := bind_ok h
  obtain ⟨ts', h5, h6⟩ := folding_inv hd h3
  have : tokens ⟨u, d.text, false, cs⟩ (.new 0 .WithinContent) = .ok ts' := h5
  rw [ht] at this
  cases this
  cases h4
  exact h6.comments a ha hc (Bool.eq_false_iff.2 (fun h => h1 (isRegionStart_spec h))) h2 hl

/-- C32: every element that ends at least two lines below the line it starts on can be folded: there is
a range that starts on this line. -/
theorem C32_elements_complete (u : Uni) (cs : Bool) (void : List Str) (d : TextDoc)
    (rs : List Fold) (pre l post : List Tok) (a e : Tok)
    (h : getFoldingRanges u cs void d none = .ok rs)
    (ht : tokens ⟨u, d.text, false, cs⟩ (.new 0 .WithinContent) = .ok (pre ++ (l ++ post)))
    (hl : ElementToks u d.text void (Balanced u d.text void) l)
    (ha : l.head? = some a) (he : l.getLast? = some e)
    (hline : (d.posAt e.stop).line > (d.posAt a.offset).line + 1) :
    ∃ r ∈ rs, r.startLine = (d.posAt a.offset).line := by
  unfold getFoldingRanges at h
  obtain ⟨f, h1, h2⟩ := bind_ok h
  cases h2
  obtain ⟨ts, h3, h4⟩ := foldLoop_ok.1 h1
  have : tokens ⟨u, d.text, false, cs⟩ (.new 0 .WithinContent) = .ok ts := h3
  rw [ht] at this
  cases this
  exact element_found hl ha he hline h4

/-- C32: every region, from a `#region` comment to the `endregion` comment that belongs to it, can be folded if they
are on different lines: there is a range that starts on the line of the first. -/
theorem C32_regions_complete (u : Uni) (cs : Bool) (void : List Str) (d : TextDoc)
    (rs : List Fold) (pre body post : List Tok) (a b : Tok)
    (h : getFoldingRanges u cs void d none = .ok rs)
    (ht : tokens ⟨u, d.text, false, cs⟩ (.new 0 .WithinContent) = .ok (pre ++ a :: (body ++ b :: post)))
    (hr : RegionToks u d.text a b) (hb : Balanced u d.text void body)
    (hline : (d.posAt b.offset).line > (d.posAt a.offset).line) :
    ∃ r ∈ rs, r.startLine = (d.posAt a.offset).line := by
  unfold getFoldingRanges at h
  obtain ⟨f, h1, h2⟩ := bind_ok h
  cases h2
  obtain ⟨ts, h3, h4⟩ := foldLoop_ok.1 h1
  have : tokens ⟨u, d.text, false, cs⟩ (.new 0 .WithinContent) = .ok ts := h3
  rw [ht] at this
  cases this
  exact region_found hr hb hline h4

/-- The hypotheses of `C32_regions_complete` are met by `<!--#region-->\\n<!--#endregion-->`. -/
example (u : Uni) (cs : Bool) : ∃ pre body post a b,
    tokens ⟨u, b!"<!--#region-->\n<!--#endregion-->", false, cs⟩ (.new 0 .WithinContent) =
      .ok (pre ++ a :: (body ++ b :: post)) ∧
    RegionToks u b!"<!--#region-->\n<!--#endregion-->" a b ∧ Balanced u b!"<!--#region-->\n<!--#endregion-->" [] body := by
  refine ⟨[⟨.StartCommentTag, 0, 4, none, .WithinComment⟩],
    [⟨.EndCommentTag, 11, 14, none, .WithinContent⟩, ⟨.Content, 14, 15, none, .WithinContent⟩,
     ⟨.StartCommentTag, 15, 19, none, .WithinComment⟩], [⟨.EndCommentTag, 29, 32, none, .WithinContent⟩],
    ⟨.Comment, 4, 11, none, .WithinComment⟩, ⟨.Comment, 19, 29, none, .WithinComment⟩, by cases cs <;> krfl, ?_, ?_⟩
  · refine ⟨rfl, ⟨[], [], rfl, rfl, .inl rfl⟩, rfl, ⟨b!"#", [], rfl, .inl rfl⟩, ?_⟩
    rintro ⟨ws, r, h1, h2, h3⟩
    have h4 : ws = [] := List.eq_nil_of_length_eq_zero h2
    subst h4
    exact absurd (show some 101 = some 114 from congrArg (fun l => l[1]?) h1) (by decide)
  · exact .skip (by simp [Neutral]) (.skip (by simp [Neutral]) (.skip (by simp [Neutral]) .nil))

/-- A text with all three kinds of ranges. -/
def foldSample : Str := b!"<a>\n<!--#region-->\n<!--\n-->\n<!--#endregion-->\n</a>"

example (u : Uni) (cs : Bool) : getFoldingRanges u cs [] (.ref foldSample) none =
    .ok [⟨2, 3, some .comment⟩, ⟨1, 4, some .region⟩, ⟨0, 4, none⟩] := by
  rw [folding_ref]
  cases cs <;> krfl

example : Lawful (.ref foldSample) := C50_reference_document_lawful foldSample

/-- The hypotheses of `C32_elements_complete` are met by `<a>\\n\\n</a>`. -/
example (u : Uni) (cs : Bool) : ∃ pre l post a e,
    tokens ⟨u, b!"<a>\n\n</a>", false, cs⟩ (.new 0 .WithinContent) = .ok (pre ++ (l ++ post)) ∧
    ElementToks u b!"<a>\n\n</a>" [] (Balanced u b!"<a>\n\n</a>" []) l ∧
    l.head? = some a ∧ l.getLast? = some e ∧
    ((TextDoc.ref b!"<a>\n\n</a>").posAt e.stop).line > ((TextDoc.ref b!"<a>\n\n</a>").posAt a.offset).line + 1 := by
  refine ⟨[⟨.StartTagOpen, 0, 1, none, .AfterOpeningStartTag⟩],
    [⟨.StartTag, 1, 2, none, .WithinTag⟩, ⟨.StartTagClose, 2, 3, none, .WithinContent⟩,
     ⟨.Content, 3, 5, none, .WithinContent⟩, ⟨.EndTagOpen, 5, 7, none, .AfterOpeningEndTag⟩,
     ⟨.EndTag, 7, 8, none, .WithinEndTag⟩, ⟨.EndTagClose, 8, 9, none, .WithinContent⟩], [], _, _,
     by cases cs <;> krfl, ?_, rfl, rfl, by decide⟩
  refine ⟨_, [], _, rfl, by simp, .inr ⟨[_, _], _, [], _, rfl, rfl, by simp, ?_, rfl, by decide, by simp, rfl⟩⟩
  exact .skip (by simp [Neutral]) (.skip (by simp [Neutral]) .nil)

/-! ### C33 -/

/-- Ranges are not empty. -/
theorem ranges_ordered {u : Uni} {cs : Bool} {void : List Str} {d : TextDoc} {all : List Fold} (hd : Lawful d)
    (h : getFoldingRanges u cs void d none = .ok all) : ∀ t ∈ all, t.startLine ≤ t.endLine := by
  obtain ⟨_, _, h1⟩ := C32_ranges_justified u cs void d none all hd h
  exact fun t ht => Nat.le_of_lt (h1 t ht).2.1

/-- C33: the ranges with a limit are ranges of the result without limit, each at most as often. -/
theorem C33_subset (u : Uni) (cs : Bool) (void : List Str) (d : TextDoc) (limit : Nat) (rs : List Fold)
    (h : getFoldingRanges u cs void d (some limit) = .ok rs) :
    ∃ all, getFoldingRanges u cs void d none = .ok all ∧ (∀ r ∈ rs, r ∈ all) ∧ (∀ r, rs.count r ≤ all.count r) ∧
      (all.length ≤ limit → rs = all) := by
  unfold getFoldingRanges at h ⊢
  obtain ⟨f, h1, h2⟩ := bind_ok h
  simp only [h1]
  refine ⟨f.ranges, rfl, ?_⟩
  simp only at h2
  split at h2
  · have hs := limitRanges_sublist h2
    have hp := sortFolds_perm f.ranges
    exact ⟨fun r hr => hp.mem_iff.1 (hs.subset hr), fun r => by
      rw [← hp.count_eq r]; exact hs.count_le r, fun h => by omega⟩
  · cases h2
    exact ⟨fun r hr => hr, fun r => Nat.le_refl _, fun _ => rfl⟩

/-- C33: if any two ranges of the result without limit are nested, with different first lines, or
disjoint, the limit is respected; a range is dropped only if all ranges inside it are dropped; and
if no range is inside 30 others, there are exactly `limit` ranges whenever there are more without the
limit. -/
theorem C33_bound_nested (u : Uni) (cs : Bool) (void : List Str) (d : TextDoc) (limit : Nat)
    (all : List Fold) (h : getFoldingRanges u cs void d none = .ok all) (hn : WellNested all) :
    ∃ rs, getFoldingRanges u cs void d (some limit) = .ok rs ∧ rs.length ≤ limit ∧
      (∀ r ∈ rs, ∀ s ∈ all, Contains s r → s ∈ rs) ∧
      ((∀ r ∈ all, depth all r < 30) → rs.length = min limit all.length) := by
  unfold getFoldingRanges at h ⊢
  obtain ⟨f, h1, h2⟩ := bind_ok h
  cases h2
  simp only [h1, bind, Except.bind]
  by_cases hl : f.ranges.length > limit
  · rw [if_pos hl]
    obtain ⟨r, m, e1, e2, e3, e4, e5, e6⟩ := limitRanges_nested (limit := limit) hn
    exact ⟨r, e1, e3, fun x hx s hs hc => e6 s hs (Nat.lt_of_lt_of_le (depth_lt hs hc) (e5 x hx)),
      fun hd => by rw [e4 hd hl]; omega⟩
  · rw [if_neg hl]
    exact ⟨_, rfl, by omega, fun _ _ s hs _ => hs, fun _ => by omega⟩

/-- C33: in general the limit is exceeded by at most the number of ranges that are not taken into account, because
they overlap the one before. -/
theorem C33_bound (u : Uni) (cs : Bool) (void : List Str) (d : TextDoc) (limit : Nat) (all sorted rs : List Fold)
    (hd : Lawful d) (h : getFoldingRanges u cs void d none = .ok all) (hs : ByLines all sorted)
    (hr : getFoldingRanges u cs void d (some limit) = .ok rs) :
    rs.length ≤ limit + (all.length - (considered none sorted).length) := by
  have hw := ranges_ordered hd h
  unfold getFoldingRanges at h hr
  obtain ⟨f, h1, h2⟩ := bind_ok h
  cases h2
  obtain ⟨f', h3, h4⟩ := bind_ok hr
  rw [h1] at h3
  cases h3
  simp only at h4
  split at h4
  · have := limitRanges_bound hw h4
    rw [considered_length (sortFolds_byLines _) hs] at this
    omega
  · cases h4; omega

/-- C33: nothing is left out of account if any two ranges are nested or disjoint. -/
theorem C33_nested_considered (all sorted : List Fold) (h : WellNested all) (hs : ByLines all sorted) :
    (considered none sorted).length = all.length := by
  rw [considered_length hs (sortFolds_byLines _), considered_nested (sorted_nested h), (sortFolds_perm all).length_eq]

/-- C33: the limit is exceeded in general. With limit 2 this document has 4 folding ranges. -/
theorem C33_limit_exceeded (u : Uni) (cs : Bool) :
    getFoldingRanges u cs [] (.ref b!"<b><!--\n--><p>\n\n</p></b>\n<b>\n<i>\n\n</i></b>") (some 2) =
      .ok [⟨0, 1, some .comment⟩, ⟨0, 2, none⟩, ⟨1, 2, none⟩, ⟨4, 6, none⟩] := by
  rw [folding_ref]
  cases cs <;> krfl

/-- 31 nested elements, each on a line of its own. -/
def deepSample : Str :=
  (List.replicate 31 b!"<b>\n").flatten ++ b!"\n" ++ (List.replicate 31 b!"</b>\n").flatten

/-- C33: the limit 30 drops all of 31 nested ranges. -/
theorem C33_deep_nesting_dropped (u : Uni) (cs : Bool) :
    (∃ all, getFoldingRanges u cs [] (.ref deepSample) none = .ok all ∧ all.length = 31 ∧ WellNested all) ∧
    getFoldingRanges u cs [] (.ref deepSample) (some 30) = .ok [] := by
  rw [folding_ref, folding_ref]
  constructor
  · refine ⟨(List.range 31).map (fun i => ⟨30 - i, 31 + i, none⟩), ?_, by decide, by decide +kernel⟩
    cases cs <;> krfl
  · cases cs <;> krfl

example (u : Uni) (cs : Bool) :
    getFoldingRanges u cs [] (.ref b!"<b>\n<i>\n\n</i>\n<i>\n\n</i></b>") none =
      .ok [⟨1, 2, none⟩, ⟨4, 5, none⟩, ⟨0, 5, none⟩] ∧
    WellNested [⟨1, 2, none⟩, ⟨4, 5, none⟩, ⟨0, 5, none⟩] ∧
    getFoldingRanges u cs [] (.ref b!"<b>\n<i>\n\n</i>\n<i>\n\n</i></b>") (some 2) =
      .ok [⟨0, 5, none⟩, ⟨1, 2, none⟩] := by
  rw [folding_ref, folding_ref]
  cases cs <;> exact ⟨by krfl, by decide, by krfl⟩

/-! ### C34 -/

/-- C34: on UTF-8 texts folding panics exactly if scanning the text does (see C08), or a limit is exceeded and the
last range, in the order of the lines, overlaps the last one before it that is taken into account. -/
theorem C34_panics_iff (u : Uni) (cs : Bool) (void : List Str) (d : TextDoc) (cps : List Nat) (limit : Option Nat)
    (hu : Utf8 cps d.text) (hd : Lawful d) :
    (∃ e, getFoldingRanges u cs void d limit = .error e) ↔
      (∃ e, tokens ⟨u, d.text, false, cs⟩ (.new 0 .WithinContent) = .error e) ∨
      (∃ n all sorted, limit = some n ∧ getFoldingRanges u cs void d none = .ok all ∧ n < all.length ∧
        ByLines all sorted ∧ ∃ init r t, sorted = init ++ [r] ∧ (considered none init).getLast? = some t ∧
          ¬ Contains t r ∧ ¬ Before t r) := by
  have h0 := foldLoop_panics_iff (u := u) (cs := cs) (void := void) (f := ⟨[], [], none, none⟩) hu
  cases h : foldLoop ⟨u, d.text, false, cs⟩ d void (2 * d.text.length + 2) ⟨[], [], none, none⟩ (.new 0 .WithinContent) with
  | error e =>
    have h1 : ∃ e, tokens ⟨u, d.text, false, cs⟩ (.new 0 .WithinContent) = .error e := h0.1 ⟨e, h⟩
    refine ⟨fun _ => .inl h1, fun _ => ⟨e, ?_⟩⟩
    unfold getFoldingRanges
    simp only [h]; rfl
  | ok f =>
    have hall : getFoldingRanges u cs void d none = .ok f.ranges := by
      unfold getFoldingRanges; simp only [h]; rfl
    have hno : ¬ ∃ e, tokens ⟨u, d.text, false, cs⟩ (.new 0 .WithinContent) = .error e := by
      rw [← h0, h]; rintro ⟨e, he⟩; cases he
    have hw := ranges_ordered hd hall
    cases limit with
    | none =>
      rw [hall]
      constructor
      · rintro ⟨e, he⟩; cases he
      · rintro (h1 | ⟨n, _, _, h1, _⟩)
        · exact absurd h1 hno
        · cases h1
    | some n =>
      have hres : getFoldingRanges u cs void d (some n) =
          if f.ranges.length > n then limitRanges f.ranges n else .ok f.ranges := by
        unfold getFoldingRanges; simp only [h]; rfl
      rw [hres]
      constructor
      · rintro ⟨e, he⟩
        split at he
        · rename_i hlt
          exact .inr ⟨n, f.ranges, sortFolds f.ranges, rfl, hall, hlt, sortFolds_byLines _, (limitRanges_panics hw).1 ⟨e, he⟩⟩
        · cases he
      · rintro (h1 | ⟨n', all, sorted, h1, h2, h3, h4, h5⟩)
        · exact absurd h1 hno
        · cases h1
          rw [hall] at h2
          cases h2
          rw [if_pos h3]
          exact (limitRanges_panics hw).2 (last_overlaps h4 (sortFolds_byLines _) h5)

/-- C34: in particular, on UTF-8 texts without unusual white space that end in an ASCII character, folding without
limit returns, and so it does with a limit if any two ranges are nested or disjoint. -/
theorem C34_plain_text_returns (u : Uni) (cs : Bool) (void : List Str) (d : TextDoc) (cps : List Nat)
    (hu : Utf8 cps d.text) (ho : ∀ cp ∈ cps, ¬ OddSpace cp) (hlast : ∀ b, d.text.getLast? = some b → b < 128) :
    ∃ all, getFoldingRanges u cs void d none = .ok all ∧
      ∀ limit, all.length ≤ limit ∨ WellNested all →
        ∃ rs, getFoldingRanges u cs void d (some limit) = .ok rs := by
  have h0 := foldLoop_panics_iff (u := u) (cs := cs) (void := void) (f := ⟨[], [], none, none⟩) hu
  have hts : ∃ ts, tokens ⟨u, d.text, false, cs⟩ (.new 0 .WithinContent) = .ok ts :=
    (C08_plain_text_returns ⟨u, d.text, false, cs⟩ cps 0 .WithinContent hu ho hlast
      (by obtain ⟨h1, h2⟩ := id hu; show isBoundary d.text 0 = true; rw [h2]; exact utf8_start h1)).1
  cases h : foldLoop ⟨u, d.text, false, cs⟩ d void (2 * d.text.length + 2) ⟨[], [], none, none⟩ (.new 0 .WithinContent) with
  | error e =>
    obtain ⟨ts, hts⟩ := hts
    obtain ⟨e, he⟩ := h0.1 ⟨e, h⟩
    rw [hts] at he; cases he
  | ok f =>
    have hall : getFoldingRanges u cs void d none = .ok f.ranges := by
      unfold getFoldingRanges; simp only [h]; rfl
    refine ⟨f.ranges, hall, fun limit hl => ?_⟩
    rcases hl with hl | hl
    · unfold getFoldingRanges
      simp only [h]
      show ∃ rs, (if f.ranges.length > limit then _ else _) = _
      rw [if_neg (by omega)]
      exact ⟨_, rfl⟩
    · obtain ⟨rs, h1, _⟩ := C33_bound_nested u cs void d limit f.ranges hall hl
      exact ⟨rs, h1⟩

/-- C34: a case of the second kind. With limit 2 this document makes folding index out of bounds. -/
theorem C34_limit_panics (u : Uni) (cs : Bool) :
    getFoldingRanges u cs [] (.ref b!"<div><!--\n--><p>\n\n</p>\n</div>") (some 2) = .error .index := by
  rw [folding_ref]
  cases cs <;> krfl

/-- The ranges of this document, and the last one that overlaps. -/
example (u : Uni) (cs : Bool) :
    getFoldingRanges u cs [] (.ref b!"<div><!--\n--><p>\n\n</p>\n</div>") none =
      .ok [⟨0, 1, some .comment⟩, ⟨1, 2, none⟩, ⟨0, 3, none⟩] ∧
    ByLines [⟨0, 1, some .comment⟩, ⟨1, 2, none⟩, ⟨0, 3, none⟩] [⟨0, 1, some .comment⟩, ⟨0, 3, none⟩, ⟨1, 2, none⟩] ∧
    considered none [⟨0, 1, some .comment⟩, ⟨0, 3, none⟩] = [⟨0, 1, some .comment⟩] ∧
    ¬ Contains ⟨0, 1, some .comment⟩ ⟨1, 2, none⟩ ∧ ¬ Before ⟨0, 1, some .comment⟩ ⟨1, 2, none⟩ := by
  refine ⟨?_, ⟨.cons _ (.swap _ _ _), by decide⟩, by decide, by decide, by decide⟩
  rw [folding_ref]
  cases cs <;> krfl

/-- Text that is not ASCII. -/
example : Utf8 [60, 233, 62, 10] b!"<é>\n" ∧ Lawful (.ref b!"<é>\n") :=
  ⟨⟨by decide, by krfl⟩, C50_reference_document_lawful _⟩

end Html.Props
