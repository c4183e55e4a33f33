import Verif.Proof.Selection
import Verif.Proof.SelectionPanics
import Verif.Proof.SelectionExact
import Verif.Proof.SelectionAll
import Verif.Props.Scanner
import Verif.Props.TextDocument
import Verif.Props.Parser

/-! # Properties of the selection ranges (C35) -/

namespace Html.Props
open Html Spec

/-- C35: one result per position, in order: the result for a position is the one of a request
with that position alone. -/
theorem C35_one_per_position (u : Uni) (cs : Bool) (d : TextDoc) (roots : List Node) (ps : List Pos)
    (rs : List SelRange) (h : getSelectionRanges u cs d roots ps = .ok rs) :
    ps.length = rs.length ∧
    ∀ i (h1 : i < ps.length) (h2 : i < rs.length), getSelectionRanges u cs d roots [ps[i]] = .ok [rs[i]] := by
  obtain ⟨h1, h2⟩ := mapM_ok.1 h
  refine ⟨h1, fun i hi hi' => mapM_ok.2 ⟨rfl, fun j hj hj' => ?_⟩⟩
  have : j = 0 := by simp at hj; omega
  subst this
  exact h2 i hi hi'

/-- C35: every range of a chain is strictly inside the ones behind it, exactly unless the cursor is in an element that
consists of its start tag, and an attribute that starts before the cursor has an unquoted value with the `/` of the `/>` of
this tag. (Then the attribute and the inside of the tag overlap, see `C35_overlap`.) -/
theorem C35_strictly_nested_iff (u : Uni) (cs : Bool) (void : List Str) (d : TextDoc) (cps : List Nat)
    (roots : List Node) (p : Pos) (s : SelRange) (hd : Lawful d) (hu : Utf8 cps d.text)
    (h : parse u cs void d.text = .ok roots) (hs : getSelectionRanges u cs d roots [p] = .ok [s]) :
    (chainRanges s).Pairwise StrictlyInside ↔
      ∀ n, InForest roots n → Covers n (d.offsetAt p) → OnlyStartTag n → ¬ SlashBehind d.text n (d.offsetAt p) := by
  have hs : selectionRange u cs d roots p = .ok s := (mapM_ok.1 hs).2 0 (by simp) (by simp)
  exact ⟨fun hp n hn hc hon hsb => chain_overlap hd hu h hn hc hon hsb hs hp, (selectionRange_good hd hu h hs).1⟩

/-- C35: every range of a chain contains the cursor, exactly unless the cursor is before the first or behind the last element,
or on a bracket of an element that consists of its start tag. -/
theorem C35_contains_cursor_iff (u : Uni) (cs : Bool) (void : List Str) (d : TextDoc) (cps : List Nat)
    (roots : List Node) (p : Pos) (s : SelRange) (hd : Lawful d) (hu : Utf8 cps d.text)
    (h : parse u cs void d.text = .ok roots) (hs : getSelectionRanges u cs d roots [p] = .ok [s]) (hp : Exact d p) :
    (∀ r ∈ chainRanges s, InRange p r) ↔
      Among roots (d.offsetAt p) ∧
        ∀ n, InForest roots n → Covers n (d.offsetAt p) → OnlyStartTag n → ¬ OnBracket d.text n (d.offsetAt p) := by
  have hs : selectionRange u cs d roots p = .ok s := (mapM_ok.1 hs).2 0 (by simp) (by simp)
  exact ⟨fun hin => ⟨chain_outside hd hu h hp hs hin, fun n hn hc hon => chain_bracket hd hu h hp hn hc hon hs hin⟩,
    fun hx => (selectionRange_good hd hu h hs).2 hp hx.1 hx.2⟩

/-- C35: with the cursor on an attribute without a value, the innermost range is its name. -/
theorem C35_bare_attribute (u : Uni) (cs : Bool) (void : List Str) (d : TextDoc) (cps : List Nat)
    (roots : List Node) (p : Pos) (s : SelRange) (m : Node) (e : Nat) (x : Str × Attr) (hd : Lawful d)
    (hu : Utf8 cps d.text) (h : parse u cs void d.text = .ok roots) (hs : getSelectionRanges u cs d roots [p] = .ok [s])
    (hm : InForest roots m) (he : m.startTagEnd = some e) (hw : m.endTagStart ≠ none ∨ m.stop = e)
    (hx : x ∈ m.attributes) (hv : x.2.value = none ∨ x.2.value = some []) (h1 : x.2.offset ≤ d.offsetAt p)
    (h2 : d.offsetAt p ≤ x.2.offset + x.1.length) :
    Begins d s [(x.2.offset, x.2.offset + x.1.length)] := by
  have hs : selectionRange u cs d roots p = .ok s := (mapM_ok.1 hs).2 0 (by simp) (by simp)
  obtain ⟨i1, i2, _⟩ := attribute_in_tag h hm he hx
  obtain ⟨hc, hwant⟩ := attrsWanted_of h hm he hw (show m.start < d.offsetAt p by omega) (show d.offsetAt p < e by omega)
  obtain ⟨attrs, stop, res, y, ts, ts1, ts2, cl, s0, s1, s2, a, hsc, _, hch⟩ :=
    chain_wanted hd hu h hm he hc (by omega) hwant hs
  rw [hsc.bare hx hv h1 h2] at hch
  exact begins_of hch (by simp) (by simp)

/-- C35: with the cursor on an attribute with a value, the chain begins with the name, if the cursor is on it, or the text
between the quotes, if the cursor is there, and the value, if the cursor is on it, and then the whole attribute. -/
theorem C35_attribute (u : Uni) (cs : Bool) (void : List Str) (d : TextDoc) (cps : List Nat)
    (roots : List Node) (p : Pos) (s : SelRange) (m : Node) (e : Nat) (x : Str × Attr) (v w : Str) (a b : Nat)
    (hd : Lawful d) (hu : Utf8 cps d.text) (h : parse u cs void d.text = .ok roots)
    (hs : getSelectionRanges u cs d roots [p] = .ok [s]) (hm : InForest roots m) (he : m.startTagEnd = some e)
    (hw : m.endTagStart ≠ none ∨ m.stop = e) (hx : x ∈ m.attributes) (hv : x.2.value = some v) (hne : v ≠ [])
    (hsp : Spaces w) (hat : At d.text x.2.offset (x.1 ++ w ++ b!"=" ++ v))
    (ha : a = x.2.offset + (x.1 ++ w ++ b!"=").length) (hb : b = a + v.length)
    (h1 : x.2.offset ≤ d.offsetAt p) (h2 : d.offsetAt p ≤ b) :
    (d.offsetAt p ≤ x.2.offset + x.1.length →
      Begins d s [(x.2.offset, x.2.offset + x.1.length), (x.2.offset, b)]) ∧
    (x.2.offset + x.1.length < d.offsetAt p → d.offsetAt p < a → Begins d s [(x.2.offset, b)]) ∧
    (a ≤ d.offsetAt p → ¬ BetweenQuotes v (d.offsetAt p - a) → Begins d s [(a, b), (x.2.offset, b)]) ∧
    (BetweenQuotes v (d.offsetAt p - a) → Begins d s [(a + 1, b - 1), (a, b), (x.2.offset, b)]) := by
  have hs : selectionRange u cs d roots p = .ok s := (mapM_ok.1 hs).2 0 (by simp) (by simp)
  obtain ⟨i1, i2, i3⟩ := attribute_in_tag h hm he hx
  have i3 := i3 v w hv hsp hat hne
  rw [List.length_append] at i3
  obtain ⟨hc, hwant⟩ := attrsWanted_of h hm he hw (show m.start < d.offsetAt p by omega) (show d.offsetAt p < e by omega)
  obtain ⟨attrs, stop, res, y, ts, ts1, ts2, cl, s0, s1, s2, z, hsc, _, hch⟩ :=
    chain_wanted hd hu h hm he hc (by omega) hwant hs
  have hl : 0 < v.length := List.length_pos_iff.2 hne
  have ha' : x.2.offset + x.1.length < a := by
    rw [ha]; simp only [List.length_append, List.length_cons]; omega
  rw [hsc.value hx hv hne hsp hat ha hb h1 h2] at hch
  obtain ⟨n1, n2⟩ := valueRanges_ne (o := d.offsetAt p) (qt := bothQuotes v)
    (show x.2.offset ≤ x.2.offset + x.1.length by omega) ha' (show a < b by omega)
  have hbg := begins_of hch n1 n2
  unfold valueRanges at hbg
  refine ⟨fun c1 => ?_, fun c1 c2 => ?_, fun c1 c2 => ?_, fun c1 => ?_⟩
  · rw [if_pos c1] at hbg; exact hbg
  · rw [if_neg (by omega), if_pos c2] at hbg; exact hbg
  · rw [bothQuotes_iff] at c2
    rw [if_neg (by omega), if_neg (by omega), if_neg (fun hh => c2 ⟨hh.1, by omega, by omega⟩)] at hbg
    exact hbg
  · rw [bothQuotes_iff] at c1
    rw [if_neg (by omega), if_neg (by omega), if_pos ⟨c1.1, by omega, by omega⟩] at hbg
    exact hbg

/-- C35: with the cursor in a start tag the chain holds the text of this tag without its brackets. -/
theorem C35_inside_tag (u : Uni) (cs : Bool) (void : List Str) (d : TextDoc) (cps : List Nat)
    (roots : List Node) (p : Pos) (s : SelRange) (m : Node) (e : Nat) (hd : Lawful d)
    (hu : Utf8 cps d.text) (h : parse u cs void d.text = .ok roots) (hs : getSelectionRanges u cs d roots [p] = .ok [s])
    (hm : InForest roots m) (he : m.startTagEnd = some e) (hw : m.endTagStart ≠ none ∨ m.stop = e)
    (h1 : m.start < d.offsetAt p) (h2 : d.offsetAt p < e) :
    (m.endTagStart = none → At d.text (e - 2) b!"/>" →
      (⟨d.posAt (m.start + 1), d.posAt (e - 2)⟩ : Range) ∈ chainRanges s) ∧
    (m.endTagStart ≠ none ∨ ¬ At d.text (e - 2) b!"/>" →
      (⟨d.posAt (m.start + 1), d.posAt (e - 1)⟩ : Range) ∈ chainRanges s) := by
  have hs : selectionRange u cs d roots p = .ok s := (mapM_ok.1 hs).2 0 (by simp) (by simp)
  obtain ⟨hc, hwant⟩ := attrsWanted_of h hm he hw h1 h2
  obtain ⟨attrs, stop, res, y, ts, ts1, ts2, cl, s0, s1, s2, z, hsc, ht, hch⟩ :=
    chain_wanted hd hu h hm he hc h2 hwant hs
  have hmem : (⟨d.posAt (m.start + 1), d.posAt stop⟩ : Range) ∈ chainRanges s := by
    rw [hch]
    exact List.mem_map.2 ⟨(m.start + 1, stop), (mem_squeeze _ _).2 (by simp), rfl⟩
  refine ⟨fun k1 k2 => ?_, fun k => ?_⟩
  · have : m.stop = e := by
      rcases hw with hw | hw
      · exact absurd k1 hw
      · exact hw
    subst this
    rcases ht with ⟨_, _, t⟩ | ⟨t, _⟩
    · rwa [t] at hmem
    · exact absurd ⟨⟨he, k1⟩, k2⟩ t
  · rcases ht with ⟨⟨t1, t2⟩, t3, t4⟩ | ⟨_, t⟩
    · rw [he] at t1
      cases t1
      rcases k with k | k
      · exact absurd t2 k
      · exact absurd t3 k
    · rwa [t] at hmem

/-- C35: with the cursor in an end tag, behind its `</`, the innermost range is its name (with white space behind it). -/
theorem C35_end_tag (u : Uni) (cs : Bool) (void : List Str) (d : TextDoc)
    (roots : List Node) (p : Pos) (s : SelRange) (m : Node) (a : Nat)
    (h : parse u cs void d.text = .ok roots) (hs : getSelectionRanges u cs d roots [p] = .ok [s])
    (hm : InForest roots m) (ha : m.endTagStart = some a) (h1 : a + 2 ≤ d.offsetAt p) (h2 : d.offsetAt p < m.stop) :
    Begins d s [(a + 2, m.stop - 1), (m.start, m.stop)] := by
  have hs : selectionRange u cs d roots p = .ok s := (mapM_ok.1 hs).2 0 (by simp) (by simp)
  exact chain_end_tag h hm ha h1 h2 hs

/-- C35: the chain holds the range of every element around the cursor that has an end tag or
of which a child is around the cursor, unless the innermost element was left open. -/
theorem C35_elements (u : Uni) (cs : Bool) (void : List Str) (d : TextDoc)
    (roots : List Node) (p : Pos) (s : SelRange) (m : Node) (h : parse u cs void d.text = .ok roots)
    (hleft : ∀ n, InForest roots n → Covers n (d.offsetAt p) → LeftOpen n →
      ∃ k ∈ n.children, Covers k (d.offsetAt p))
    (hs : getSelectionRanges u cs d roots [p] = .ok [s])
    (hm : InForest roots m) (hc : Covers m (d.offsetAt p))
    (hin : m.endTagStart ≠ none ∨ ∃ k ∈ m.children, Covers k (d.offsetAt p)) :
    (⟨d.posAt m.start, d.posAt m.stop⟩ : Range) ∈ chainRanges s := by
  obtain ⟨l, hl, h1, _⟩ := mem_chain ((mapM_ok.1 hs).2 0 (by simp) (by simp))
  exact h1 _ (applicableRanges_elements h hleft hl hm hc hin)

/-- C35: the chain holds the content of every element of which a child is around the cursor, unless the innermost element
was left open. -/
theorem C35_contents (u : Uni) (cs : Bool) (void : List Str) (d : TextDoc)
    (roots : List Node) (p : Pos) (s : SelRange) (m : Node) (a b : Nat) (h : parse u cs void d.text = .ok roots)
    (hleft : ∀ n, InForest roots n → Covers n (d.offsetAt p) → LeftOpen n →
      ∃ k ∈ n.children, Covers k (d.offsetAt p))
    (hs : getSelectionRanges u cs d roots [p] = .ok [s])
    (hm : InForest roots m) (hc : Covers m (d.offsetAt p)) (hk : ∃ k ∈ m.children, Covers k (d.offsetAt p))
    (ha : m.startTagEnd = some a) (hb : m.endTagStart = some b) :
    (⟨d.posAt a, d.posAt b⟩ : Range) ∈ chainRanges s := by
  obtain ⟨l, hl, h1, _⟩ := mem_chain ((mapM_ok.1 hs).2 0 (by simp) (by simp))
  obtain ⟨k, hk1, hk2⟩ := hk
  have hlt : a < b := by
    have hne : m.children ≠ [] := List.ne_nil_of_mem hk1
    obtain ⟨e, he, _, hsib, _⟩ := (C12_well_nested u cs void _ roots m h hm).2.2 hne
    rw [ha] at he
    cases he
    unfold contentEnd at hsib
    rw [hb] at hsib
    exact siblings_some hsib hne
  exact h1 _ (applicableRanges_contents h hleft hl hm hc ⟨k, hk1, hk2⟩ ha hb hlt)

/-- C35: the outermost range is from the first to the last element, unless the innermost element was left open. -/
theorem C35_outermost (u : Uni) (cs : Bool) (void : List Str) (d : TextDoc)
    (roots : List Node) (p : Pos) (s : SelRange) (a b : Node) (h : parse u cs void d.text = .ok roots)
    (hleft : ∀ n, InForest roots n → Covers n (d.offsetAt p) → LeftOpen n →
      ∃ k ∈ n.children, Covers k (d.offsetAt p))
    (hs : getSelectionRanges u cs d roots [p] = .ok [s])
    (ha : roots.head? = some a) (hb : roots.getLast? = some b) :
    (chainRanges s).getLast? = some ⟨d.posAt a.start, d.posAt b.stop⟩ := by
  have hs : selectionRange u cs d roots p = .ok s := (mapM_ok.1 hs).2 0 (by simp) (by simp)
  obtain ⟨l, hl, h1⟩ := selectionRange_chain hs
  have hlast := applicableRanges_last h hleft hl ha hb
  rcases h1 with ⟨rfl, _⟩ | h1
  · cases hlast
  · rw [h1, List.getLast?_map, squeeze_getLast, hlast]
    rfl

/-- C35: the chain holds nothing but the range from the first to the last element, the elements around the cursor, their
contents, and parts of the tags of the innermost one; without elements, the cursor. -/
theorem C35_nothing_else (u : Uni) (cs : Bool) (void : List Str) (d : TextDoc) (cps : List Nat)
    (roots : List Node) (p : Pos) (s : SelRange) (r : Range) (hd : Lawful d) (hu : Utf8 cps d.text)
    (h : parse u cs void d.text = .ok roots) (hs : getSelectionRanges u cs d roots [p] = .ok [s])
    (hr : r ∈ chainRanges s) :
    (roots = [] ∧ r = ⟨p, p⟩) ∨ ∃ x, RangeAround roots (d.offsetAt p) x ∧ r = ⟨d.posAt x.1, d.posAt x.2⟩ := by
  have hs : selectionRange u cs d roots p = .ok s := (mapM_ok.1 hs).2 0 (by simp) (by simp)
  obtain ⟨l, hl, h1⟩ := selectionRange_chain hs
  rcases h1 with ⟨rfl, rfl⟩ | h1
  · refine .inl ⟨applicableRanges_nil hl, by simpa [chainRanges] using hr⟩
  · rw [h1] at hr
    obtain ⟨x, hx, rfl⟩ := List.mem_map.1 hr
    exact .inr ⟨x, applicableRanges_all hd hu h hl ((mem_squeeze _ _).1 hx), rfl⟩

/-- C35: with the cursor in the content of an element, and in none of its children, the
innermost range is that content. -/
theorem C35_content (u : Uni) (cs : Bool) (void : List Str) (d : TextDoc)
    (roots : List Node) (p : Pos) (s : SelRange) (m : Node) (a b : Nat)
    (h : parse u cs void d.text = .ok roots) (hs : getSelectionRanges u cs d roots [p] = .ok [s])
    (hm : InForest roots m) (ha : m.startTagEnd = some a) (hb : m.endTagStart = some b)
    (h1 : a ≤ d.offsetAt p) (h2 : d.offsetAt p ≤ b) (hk : ∀ k ∈ m.children, ¬ Covers k (d.offsetAt p)) :
    (chainRanges s).head? = some ⟨d.posAt a, d.posAt b⟩ := by
  have h14 := C14_offsets_point_at_brackets u cs void _ roots m h hm
  obtain ⟨_, h3, x, hx, h4, _⟩ := h14.2.2.1 b hb
  rw [ha] at hx; cases hx
  have hc : Covers m (d.offsetAt p) := ⟨by omega, by omega⟩
  obtain ⟨l, hl, _, h5⟩ := mem_chain ((mapM_ok.1 hs).2 0 (by simp) (by simp))
  exact h5 _ (applicableRanges_content h hl hm ha hb h1 h2 hc hk)

/-- C35: on a UTF-8 text that is parsed a request panics exactly if, for one of the cursors, the attributes of the
innermost element around it are looked at and scanning the text of this element panics (see C08). -/
theorem C35_panics_iff (u : Uni) (cs : Bool) (void : List Str) (d : TextDoc) (cps : List Nat) (roots : List Node)
    (ps : List Pos) (hd : Lawful d) (ho : Ordered d) (hu : Utf8 cps d.text) (h : parse u cs void d.text = .ok roots) :
    (∃ e, getSelectionRanges u cs d roots ps = .error e) ↔
      ∃ p ∈ ps, ∃ n, InForest roots n ∧ Covers n (d.offsetAt p) ∧ (∀ k ∈ n.children, ¬ Covers k (d.offsetAt p)) ∧
        AttrsWanted n (d.offsetAt p) ∧
        ∃ e, tokens ⟨u, bytesIn d.text n.start n.stop, false, cs⟩ (.new 0 .WithinContent) = .error e := by
  unfold getSelectionRanges
  rw [mapM_error]
  simp only [selectionRange_panics, applicableRanges_panics hd ho hu h]

/-- C35: this happens although the text is parsed (if the no-break space is no letter): within an element with a tag
that is cut short, the scanner for the attributes reads on where the parser begins a new tag. -/
theorem C35_panics (l : Str → Str) (cs : Bool) :
    ∃ roots, parse ⟨fun _ => false, l⟩ cs [] b!"<p><a <\u00a0></p>" = .ok roots ∧
      getSelectionRanges ⟨fun _ => false, l⟩ cs (.ref b!"<p><a <\u00a0></p>") roots [⟨0, 1⟩] = .error .slice := by
  refine ⟨[⟨some b!"p", 0, 14, [⟨some b!"a", 3, 6, [], false, none, none, []⟩,
    ⟨none, 6, 10, [], false, some 10, none, []⟩], true, some 3, some 10, []⟩], ?_, ?_⟩
  · cases cs <;> krfl
  · cases cs <;> krfl

example : Utf8 [60, 112, 62, 60, 97, 32, 60, 160, 62, 60, 47, 112, 62] b!"<p><a <\u00a0></p>" ∧
    Ordered (.ref b!"<p><a <\u00a0></p>") := ⟨⟨by decide, by krfl⟩, ref_ordered _⟩

/-- C35: so no request panics on a UTF-8 text without unusual white space if elements end in ASCII characters. -/
theorem C35_plain_text_no_panic (u : Uni) (cs : Bool) (void : List Str) (d : TextDoc) (cps : List Nat)
    (roots : List Node) (ps : List Pos) (hd : Lawful d) (ho : Ordered d) (hu : Utf8 cps d.text)
    (hodd : ∀ cp ∈ cps, ¬ OddSpace cp) (h : parse u cs void d.text = .ok roots)
    (hlast : ∀ n, InForest roots n → ∀ b, d.text[n.stop - 1]? = some b → b < 128) :
    ∃ rs, getSelectionRanges u cs d roots ps = .ok rs := by
  cases hr : getSelectionRanges u cs d roots ps with
  | ok rs => exact ⟨rs, rfl⟩
  | error e =>
    exfalso
    obtain ⟨p, _, n, h1, h2, _, _, e', h3⟩ := (C35_panics_iff u cs void d cps roots ps hd ho hu h).1 ⟨e, hr⟩
    have hnx := asciiNext_of_utf8 hu
    have hdone := parse_done h h1
    have hle : n.stop ≤ d.text.length := hdone.le
    unfold Covers at h2
    obtain ⟨cps', hu', hsub⟩ := utf8_sub hu (hdone.start_bd hnx).1 (parse_stop_bd hnx h h1) (by omega)
    obtain ⟨⟨ts, hts⟩, _⟩ := C08_plain_text_returns ⟨u, bytesIn d.text n.start n.stop, false, cs⟩ cps' 0 .WithinContent
      hu' (fun cp hcp => hodd cp (hsub cp hcp)) (fun b hb => by
        have hb : (bytesIn d.text n.start n.stop).getLast? = some b := hb
        rw [List.getLast?_eq_getElem?, bytesIn_length hle, bytesIn_getElem?] at hb
        rw [if_pos (by omega), show n.start + (n.stop - n.start - 1) = n.stop - 1 by omega] at hb
        exact hlast n h1 b hb) (by
        obtain ⟨k1, k2⟩ := id hu'
        show isBoundary (bytesIn d.text n.start n.stop) 0 = true
        rw [k2]; exact utf8_start k1)
    rw [hts] at h3
    cases h3

/-- C35: no request on an ASCII text panics. -/
theorem C35_ascii_no_panic (u : Uni) (cs : Bool) (void : List Str) (d : TextDoc) (roots : List Node)
    (ps : List Pos) (hd : Lawful d) (ha : isAscii d.text) (h : parse u cs void d.text = .ok roots) :
    ∃ rs, getSelectionRanges u cs d roots ps = .ok rs := by
  unfold getSelectionRanges
  induction ps with
  | nil => exact ⟨[], rfl⟩
  | cons p ps ih =>
    obtain ⟨rs, hrs⟩ := ih
    obtain ⟨s, hs⟩ := selectionRange_total (p := p) hd ha h
    rw [List.mapM_cons, hs, hrs]
    exact ⟨_, rfl⟩

/-- C35 fails: in `<a b=x/>` the value `x/` and the inside of the tag overlap. -/
theorem C35_overlap (u : Uni) (cs : Bool) :
    ∃ roots, parse u cs [] b!"<a b=x/>" = .ok roots ∧
      getSelectionRanges u cs (.ref b!"<a b=x/>") roots [⟨0, 7⟩] =
        .ok [.inner ⟨⟨0, 5⟩, ⟨0, 7⟩⟩ (.inner ⟨⟨0, 3⟩, ⟨0, 7⟩⟩ (.inner ⟨⟨0, 1⟩, ⟨0, 6⟩⟩ (.top ⟨⟨0, 0⟩, ⟨0, 8⟩⟩)))] ∧
      ¬ StrictlyInside ⟨⟨0, 3⟩, ⟨0, 7⟩⟩ ⟨⟨0, 1⟩, ⟨0, 6⟩⟩ := by
  refine ⟨[⟨some b!"a", 0, 8, [], false, some 8, none, [(b!"b", ⟨some b!"x/", 3⟩)]⟩], ?_, ?_, ?_⟩
  · cases cs <;> krfl
  · cases cs <;> krfl
  · unfold StrictlyInside PosLe; simp

/-- C35 fails: with the cursor before the `<` of a void element, or on the `>` of a self-closing
one, the innermost range does not contain it. -/
theorem C35_bracket (u : Uni) (cs : Bool) :
    (∃ roots, parse u cs [b!"br"] b!"<br>" = .ok roots ∧
      getSelectionRanges u cs (.ref b!"<br>") roots [⟨0, 0⟩] =
        .ok [.inner ⟨⟨0, 1⟩, ⟨0, 3⟩⟩ (.top ⟨⟨0, 0⟩, ⟨0, 4⟩⟩)]) ∧
    (∃ roots, parse u cs [b!"br"] b!"<br/>" = .ok roots ∧
      getSelectionRanges u cs (.ref b!"<br/>") roots [⟨0, 4⟩] =
        .ok [.inner ⟨⟨0, 1⟩, ⟨0, 3⟩⟩ (.top ⟨⟨0, 0⟩, ⟨0, 5⟩⟩)]) := by
  refine ⟨⟨[⟨some b!"br", 0, 4, [], true, some 4, none, []⟩], ?_, ?_⟩,
    ⟨[⟨some b!"br", 0, 5, [], true, some 5, none, []⟩], ?_, ?_⟩⟩ <;> cases cs <;> krfl

/-- C35 fails: with the cursor behind all elements, the only range does not contain it. -/
theorem C35_outside (u : Uni) (cs : Bool) :
    ∃ roots, parse u cs [] b!"<a></a> x" = .ok roots ∧
      getSelectionRanges u cs (.ref b!"<a></a> x") roots [⟨0, 9⟩] = .ok [.top ⟨⟨0, 0⟩, ⟨0, 7⟩⟩] := by
  refine ⟨[⟨some b!"a", 0, 7, [], true, some 3, some 3, []⟩], ?_, ?_⟩ <;> cases cs <;> krfl

/-- In an element that was left open, the ranges of the elements around it are missing. -/
theorem C35_left_open (u : Uni) (cs : Bool) :
    ∃ roots, parse u cs [] b!"<a><b>x</a>" = .ok roots ∧
      getSelectionRanges u cs (.ref b!"<a><b>x</a>") roots [⟨0, 6⟩] = .ok [.top ⟨⟨0, 3⟩, ⟨0, 7⟩⟩] := by
  refine ⟨[⟨some b!"a", 0, 11, [⟨some b!"b", 3, 7, [], false, some 6, none, []⟩], true, some 3, some 7, []⟩],
    ?_, ?_⟩ <;> cases cs <;> krfl

/-- What the theorems above say about `<a b=x/>`: the value takes the `/`. -/
example : SlashBehind b!"<a b=x/>" ⟨some b!"a", 0, 8, [], false, some 8, none, [(b!"b", ⟨some b!"x/", 3⟩)]⟩ 7 :=
  ⟨⟨[], by decide⟩, (b!"b", ⟨some b!"x/", 3⟩), by decide, b!"x/", [], rfl, rfl, by simp [Spaces], ⟨b!">", by decide⟩, by decide⟩

/-- A text with an attribute, for the examples. -/
def selText : Str := b!"<p><i b='c'>x</i></p>"

example : Lawful (.ref selText) ∧ Utf8 selText selText := ⟨C50_reference_document_lawful _, by decide, by decide⟩
example : returns (parse exUni false [] selText) (fun roots =>
    returns (getSelectionRanges exUni false (.ref selText) roots [⟨0, 9⟩]) (fun rs =>
      rs.map chainRanges = [[⟨⟨0, 9⟩, ⟨0, 10⟩⟩, ⟨⟨0, 8⟩, ⟨0, 11⟩⟩, ⟨⟨0, 6⟩, ⟨0, 11⟩⟩, ⟨⟨0, 4⟩, ⟨0, 11⟩⟩,
        ⟨⟨0, 3⟩, ⟨0, 17⟩⟩, ⟨⟨0, 0⟩, ⟨0, 21⟩⟩]])) = true := by decide +kernel
example : BetweenQuotes b!"'c'" 1 ∧ ¬ BetweenQuotes b!"'c'" 3 := by
  simp only [bothQuotes_iff]
  decide
example : At selText 6 (b!"b" ++ [] ++ b!"=" ++ b!"'c'") ∧ Exact (.ref selText) ⟨0, 9⟩ := ⟨⟨b!">x</i></p>", by decide⟩, by unfold Exact; krfl⟩

/-- The cursor in the child of an element: its content, the element, and the range of both elements. -/
example : returns (parse exUni false [] b!"<a><b>x</b></a><c/>") (fun roots =>
    returns (getSelectionRanges exUni false (.ref b!"<a><b>x</b></a><c/>") roots [⟨0, 6⟩]) (fun rs =>
      rs.map chainRanges = [[⟨⟨0, 6⟩, ⟨0, 7⟩⟩, ⟨⟨0, 3⟩, ⟨0, 11⟩⟩, ⟨⟨0, 0⟩, ⟨0, 15⟩⟩, ⟨⟨0, 0⟩, ⟨0, 19⟩⟩]])) = true := by
  decide +kernel

end Html.Props
