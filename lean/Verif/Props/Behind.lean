import Verif.Proof.Behind
import Verif.Props.Cut
import Verif.Props.HoverTree
import Verif.Props.TextDocument

/-! # What the services say about an element does not depend on what is behind it (C94) -/

namespace Html.Props
open Html Html.Spec

/-- C94: linked editing on an element that is complete in front of a place in content gives the same whatever is behind the
place. -/
theorem C94_linked_editing (u : Uni) (cs : Bool) (void : List Str) (a : Str) (d d' : TextDoc) (roots roots' : List Node)
    (n : Node) (p : Pos) (ha : EndsInContent u cs a) (hb : BeginAlike a d d') (h : parse u cs void d.text = .ok roots)
    (h' : parse u cs void d'.text = .ok roots') (hp : d'.offsetAt p = d.offsetAt p) (hn : Innermost roots n (d.offsetAt p))
    (hc : AllInFront a n) (hf : NameFits a n) :
    findLinkedEditingRanges d' p roots' = findLinkedEditingRanges d p roots :=
  linked_front ha hb h h' hp hn hc hf

/-- C94: so does looking for the matching tag. -/
theorem C94_matching_tag (u : Uni) (cs : Bool) (void : List Str) (a : Str) (d d' : TextDoc) (roots roots' : List Node)
    (n : Node) (p : Pos) (ha : EndsInContent u cs a) (hb : BeginAlike a d d') (h : parse u cs void d.text = .ok roots)
    (h' : parse u cs void d'.text = .ok roots') (hp : d'.offsetAt p = d.offsetAt p) (hn : Innermost roots n (d.offsetAt p))
    (hc : AllInFront a n) (hf : NameFits a n) :
    findMatchingTagPosition d' p roots' = findMatchingTagPosition d p roots :=
  matching_front ha hb h h' hp hn hc hf

/-- C94: so does renaming. -/
theorem C94_rename (u : Uni) (cs : Bool) (void : List Str) (a : Str) (d d' : TextDoc) (roots roots' : List Node)
    (n : Node) (p : Pos) (new : Str) (ha : EndsInContent u cs a) (hb : BeginAlike a d d')
    (h : parse u cs void d.text = .ok roots)
    (h' : parse u cs void d'.text = .ok roots') (hp : d'.offsetAt p = d.offsetAt p) (hn : Innermost roots n (d.offsetAt p))
    (hc : AllInFront a n) (hf : NameFits a n) : doRename d' p new roots' = doRename d p new roots :=
  rename_front ha hb h h' hp hn hc hf new

/-- C94: so does highlighting, in UTF-8 texts. -/
theorem C94_highlights (u : Uni) (cs : Bool) (void : List Str) (a : Str) (cps : List Nat) (d d' : TextDoc)
    (roots roots' : List Node) (n : Node) (p : Pos) (ha : EndsInContent u cs a) (hb : BeginAlike a d d') (hu : Utf8 cps a)
    (h : parse u cs void d.text = .ok roots)
    (h' : parse u cs void d'.text = .ok roots') (hp : d'.offsetAt p = d.offsetAt p) (hn : Innermost roots n (d.offsetAt p))
    (hc : AllInFront a n) : findDocumentHighlights u cs d' p roots' = findDocumentHighlights u cs d p roots :=
  highlights_front ha hb hu h h' hp hn hc

/-- C94: when case matters the name in the end tag is the one in the start tag, so it always fits. -/
theorem C94_fits (u : Uni) (void : List Str) (a : Str) (src : Str) (roots : List Node) (n : Node)
    (h : parse u true void src = .ok roots) (hn : InForest roots n) (hc : AllInFront a n) : NameFits a n := by
  intro e he
  obtain ⟨_, _, _, name, h1, h2⟩ := (parse_done h hn).ets e he
  have h3 : n.tag = name := by simpa [SameName, parserCfg] using h1
  have h4 : NameIs u src (e + 2) name n.stop := by
    rcases h2 with h2 | h2
    · exact h2.2.mono (by omega)
    · exact h2.2
  have hs := hc.stop
  unfold nameLen
  rw [h3]
  cases name with
  | none => have := nameAfter_le h4.spec; simp; omega
  | some t =>
    obtain ⟨w, _, _, _, _, _, h5⟩ := h4.nameAt
    simp; omega

/-- C94: hovering over the name in a start tag in front of the place gives the same whatever is behind the place, even if
the element goes on there. -/
theorem C94_hover_element (void : List Str) (e : HoverEnv) (a : Str) (d d' : TextDoc) (roots roots' : List Node) (n : Node)
    (tag : Str) (s : Nat) (ha : EndsInContent e.uni e.caseSensitive a) (hb : BeginAlike a d d')
    (h : parse e.uni e.caseSensitive void d.text = .ok roots) (h' : parse e.uni e.caseSensitive void d'.text = .ok roots')
    (hn : InForest roots n) (ht : n.tag = some tag) (hs : n.startTagEnd = some s) (hl : s ≤ a.length) :
    ∃ k, NameAt d.text (n.start + 1) tag k ∧
      ∀ p, d'.offsetAt p = d.offsetAt p → k ≤ d.offsetAt p → d.offsetAt p ≤ k + tag.length →
        doHover e d' p roots' = doHover e d p roots := by
  obtain ⟨x, hx⟩ := hb.left
  obtain ⟨y, hy⟩ := hb.right
  obtain ⟨m, hm, m1, m2, m3, m4⟩ := start_kept ha (hx ▸ h) (hy ▸ h') hn hs hl
  obtain ⟨k, h1, h2⟩ := C88_element_name void e d roots n tag h hn ht
  obtain ⟨k', h1', h2'⟩ := C88_element_name void e d' roots' m tag h' hm (m2.trans ht)
  obtain ⟨hbr, _⟩ := start_bracket hb h hn hs hl
  have hname := (parse_done h hn).name
  rw [ht, hs] at hname
  obtain ⟨w, _, _, _, _, g1, g2⟩ := NameIs.nameAt hname
  have hk := nameAt_unique h1 g1
  have hlt : k + tag.length < s := by
    have hs1 : d.text[s - 1]? = some 62 := by
      rw [hx, List.getElem?_append_left (by have := (List.getElem?_eq_some_iff.1 hbr).1; omega)]
      exact hbr
    have := nameAt_lt h1 hs1 (by rw [hk]; exact g2)
    exact this
  have hkk : k = k' := by
    have e1 : At d'.text (n.start + 1 + w.length) tag := by
      have := h1.2.1
      rw [hx, hk] at this
      rw [hy]; exact at_front this (by omega)
    have e2 : NameAt d'.text (n.start + 1) tag k := by
      obtain ⟨c1, c2, c3, v, c4, c5, c6⟩ := id h1
      refine ⟨c1, by rw [hk]; exact e1, fun b hb' => c3 b ?_, v, c4, ?_, c6⟩
      · rw [hy, List.getElem?_append_left (by omega)] at hb'
        rw [hx, List.getElem?_append_left (by omega)]
        exact hb'
      · rw [hx] at c5
        rw [hy]; exact at_front c5 (by omega)
    rw [m1] at h1'
    exact nameAt_unique e2 h1'
  subst hkk
  refine ⟨k, h1, fun p hp p1 p2 => ?_⟩
  rw [h2 p p1 p2 (by rw [hs]; simp; omega), h2' p (by omega) (by omega) (by rw [m3]; simp; omega), hb.pos _ (by omega),
    hb.pos _ (by omega)]

/-- C94: so does hovering over the name of an attribute. -/
theorem C94_hover_attribute (void : List Str) (e : HoverEnv) (a : Str) (d d' : TextDoc) (cps cps' : List Nat)
    (roots roots' : List Node) (n : Node) (tag k : Str) (x : Attr) (s : Nat) (p : Pos)
    (ha : EndsInContent e.uni e.caseSensitive a) (hb : BeginAlike a d d') (hd : Lawful d) (hd' : Lawful d')
    (hu : Utf8 cps d.text) (hu' : Utf8 cps' d'.text)
    (h : parse e.uni e.caseSensitive void d.text = .ok roots) (h' : parse e.uni e.caseSensitive void d'.text = .ok roots')
    (hn : InForest roots n) (ht : n.tag = some tag) (hs : n.startTagEnd = some s) (hl : s ≤ a.length)
    (hk : (k, x) ∈ n.attributes) (hp : d'.offsetAt p = d.offsetAt p) (h1 : x.offset ≤ d.offsetAt p)
    (h2 : d.offsetAt p ≤ x.offset + k.length) (h3 : d.offsetAt p < s) : doHover e d' p roots' = doHover e d p roots := by
  obtain ⟨y, hy⟩ := hb.left
  obtain ⟨z, hz⟩ := hb.right
  obtain ⟨m, hm, m1, m2, m3, m4⟩ := start_kept ha (hy ▸ h) (hz ▸ h') hn hs hl
  have h4 : x.offset + k.length ≤ s := by
    have := attr_name_le ((parse_done h hn).attrs _ hk)
    rw [hs] at this
    exact this
  rw [C88_attribute_name void e d cps roots n tag k x p hd hu h hn ht hk h1 h2 (by rw [hs]; exact h3),
    C88_attribute_name void e d' cps' roots' m tag k x p hd' hu' h' hm (m2.trans ht) (by rw [m4]; exact hk) (by omega)
      (by omega) (by rw [m3, hp]; exact h3), hb.pos _ (by omega), hb.pos _ (by omega), hp]

/-- C94: so does hovering over the value of an attribute. -/
theorem C94_hover_value (void : List Str) (e : HoverEnv) (a : Str) (d d' : TextDoc) (cps cps' : List Nat)
    (roots roots' : List Node) (n : Node) (tag k v w : Str) (x i s : Nat) (p : Pos)
    (ha : EndsInContent e.uni e.caseSensitive a) (hb : BeginAlike a d d') (hd : Lawful d) (hd' : Lawful d')
    (hc : Columns d) (hc' : Columns d') (hu : Utf8 cps d.text) (hu' : Utf8 cps' d'.text)
    (h : parse e.uni e.caseSensitive void d.text = .ok roots) (h' : parse e.uni e.caseSensitive void d'.text = .ok roots')
    (hn : InForest roots n) (ht : n.tag = some tag) (hs : n.startTagEnd = some s) (hl : s ≤ a.length)
    (hk : (k, ⟨some v, x⟩) ∈ n.attributes) (hne : v ≠ []) (hw : WrittenAt d.text k v x i) (hv : unquoted v w)
    (hp : d'.offsetAt p = d.offsetAt p) (hx : Exact d p) (h1 : i ≤ d.offsetAt p) (h2 : d.offsetAt p ≤ i + v.length)
    (h3 : d.offsetAt p < s) (hent : ∀ k m, ¬ EntityAt d.text (d.offsetAt p) k m) :
    doHover e d' p roots' = doHover e d p roots := by
  obtain ⟨y, hy⟩ := hb.left
  obtain ⟨z, hz⟩ := hb.right
  obtain ⟨m, hm, m1, m2, m3, m4⟩ := start_kept ha (hy ▸ h) (hz ▸ h') hn hs hl
  obtain ⟨hbr, _⟩ := start_bracket hb h hn hs hl
  obtain ⟨i', w1, w2, w3, w4, w5⟩ := C88_value_place e.uni e.caseSensitive void d.text roots n k v x h hn hk
  have hi := w2 i hw
  subst hi
  rw [hs] at w5
  have hw' : WrittenAt d'.text k v x i := by
    obtain ⟨b, b1, b2, b3⟩ := hw
    refine ⟨b, b1, ?_, b3⟩
    rw [hy] at b2
    rw [hz]
    refine at_front b2 ?_
    rw [List.length_append]
    simp at w5
    omega
  have hx' : Exact d' p := by
    unfold Exact at hx ⊢
    rw [hp, hb.pos _ (by omega)]; exact hx
  simp only [Option.getD_some] at w5
  rw [C88_attribute_value void e d cps roots n tag k v w x i p hd hc hx hu h hn ht hk hne hw hv h1 h2 (by rw [hs]; exact h3) hent,
    C88_attribute_value void e d' cps' roots' m tag k v w x i p hd' hc' hx' hu' h' hm (m2.trans ht) (by rw [m4]; exact hk) hne hw'
      hv (by omega) (by omega) (by rw [m3, hp]; exact h3) (fun k m hh => hent k m (by
        rw [hz, hp] at hh
        rw [hy]
        exact entity_front hl hbr h3 hh)), hb.pos _ (by omega), hb.pos _ (by omega)]

/-- C94: documents of the reference implementation begin alike if their texts do, unless the common part ends between
`\r` and `\n`; and a position in the common part is at the same offset in both. -/
theorem C94_reference (a x y : Str) (ha : a.getLast? ≠ some 13) :
    BeginAlike a (.ref (a ++ x)) (.ref (a ++ y)) ∧
    ∀ p, (TextDoc.ref (a ++ x)).offsetAt p < a.length →
      (TextDoc.ref (a ++ y)).offsetAt p = (TextDoc.ref (a ++ x)).offsetAt p :=
  ⟨⟨⟨x, rfl⟩, ⟨y, rfl⟩, fun o ho => refPosAt_front a x y ha o ho⟩, fun p hp => refOffsetAt_front a x y p.line p.character hp⟩

/-- Behind `<p><i></i>a` there is `<q></p>`, or nothing; the `i` is complete in front, and the start tag of the `p` is. -/
example (u : Uni) (cs : Bool) :
    EndsInContent u cs b!"<p><i></i>a" ∧
    (∃ roots, parse u cs [] (b!"<p><i></i>a" ++ b!"<q></p>") = .ok roots ∧
      Innermost roots ⟨some b!"i", 3, 10, [], true, some 6, some 6, []⟩ 4 ∧
      findLinkedEditingRanges (.ref (b!"<p><i></i>a" ++ b!"<q></p>")) ⟨0, 4⟩ roots =
        some [⟨⟨0, 4⟩, ⟨0, 5⟩⟩, ⟨⟨0, 8⟩, ⟨0, 9⟩⟩]) ∧
    (∃ roots', parse u cs [] (b!"<p><i></i>a" ++ []) = .ok roots' ∧
      findLinkedEditingRanges (.ref (b!"<p><i></i>a" ++ [])) ⟨0, 4⟩ roots' =
        some [⟨⟨0, 4⟩, ⟨0, 5⟩⟩, ⟨⟨0, 8⟩, ⟨0, 9⟩⟩]) ∧
    AllInFront b!"<p><i></i>a" ⟨some b!"i", 3, 10, [], true, some 6, some 6, []⟩ ∧
    NameFits b!"<p><i></i>a" ⟨some b!"i", 3, 10, [], true, some 6, some 6, []⟩ := by
  refine ⟨exEndsInContent u cs, ⟨[⟨some b!"p", 0, 18,
      [⟨some b!"i", 3, 10, [], true, some 6, some 6, []⟩, ⟨some b!"q", 11, 14, [], false, some 14, none, []⟩], true,
      some 3, some 14, []⟩], by cases cs <;> krfl, ⟨.child (.root (.head _)) (.head _), by decide, by decide⟩, by krfl⟩,
    ⟨[⟨some b!"p", 0, 11, [⟨some b!"i", 3, 10, [], true, some 6, some 6, []⟩], false, some 3, none, []⟩],
      by cases cs <;> krfl, by krfl⟩, ⟨rfl, by decide, by decide⟩, ?_⟩
  intro e he
  cases he
  decide

/-- The start tag of an element that goes on behind the place. -/
example (u : Uni) : EndsInContent u false b!"<a b='c'>" :=
  ⟨b!"<a b='c'>", [], by decide, by decide, .inr ⟨[⟨.StartTagOpen, 0, 1, none, .AfterOpeningStartTag⟩,
      ⟨.StartTag, 1, 2, none, .WithinTag⟩, ⟨.Whitespace, 2, 3, none, .WithinTag⟩,
      ⟨.AttributeName, 3, 4, none, .AfterAttributeName⟩, ⟨.DelimiterAssign, 4, 5, none, .BeforeAttributeValue⟩,
      ⟨.AttributeValue, 5, 8, none, .WithinTag⟩],
    ⟨.StartTagClose, 8, 9, none, .WithinContent⟩,
    ⟨⟨[60, 97, 32, 98, 61, 39, 99, 39, 62], by decide, rfl⟩, by krfl, by decide, by decide⟩, rfl⟩⟩
example : exHoverAt false (b!"<a b='c'>" ++ b!"&lt;</a>") 6 = .ok (some (b!"value", some ⟨⟨0, 5⟩, ⟨0, 8⟩⟩)) ∧
    exHoverAt false (b!"<a b='c'>" ++ b!"<p") 6 = .ok (some (b!"value", some ⟨⟨0, 5⟩, ⟨0, 8⟩⟩)) := ⟨by krfl, by krfl⟩

/-- C94: it has to be content where the place is: behind `<p></p` another letter changes the name. -/
theorem C94_needs_content (u : Uni) (cs : Bool) :
    ∃ roots roots', parse u cs [] (b!"<p></p" ++ b!">") = .ok roots ∧ parse u cs [] (b!"<p></p" ++ b!"q>") = .ok roots' ∧
      findLinkedEditingRanges (.ref (b!"<p></p" ++ b!">")) ⟨0, 1⟩ roots = some [⟨⟨0, 1⟩, ⟨0, 2⟩⟩, ⟨⟨0, 5⟩, ⟨0, 6⟩⟩] ∧
      findLinkedEditingRanges (.ref (b!"<p></p" ++ b!"q>")) ⟨0, 1⟩ roots' = none := by
  refine ⟨[⟨some b!"p", 0, 7, [], true, some 3, some 3, []⟩], [⟨some b!"p", 0, 8, [], false, some 3, none, []⟩],
    by cases cs <;> krfl, by cases cs <;> krfl, by krfl, by krfl⟩

end Html.Props
