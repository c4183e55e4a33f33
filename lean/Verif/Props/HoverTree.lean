import Verif.Proof.HoverTotal

/-! # Hovering over the elements of the tree: C88 -/

namespace Html.Props
open Html Spec

/-- C88: with the cursor on the name in the start tag of an element of the tree, hover answers what the data providers
know about the tag, whatever else is in the document. -/
theorem C88_element_name (void : List Str) (e : HoverEnv) (d : TextDoc) (roots : List Node) (n : Node) (tag : Str)
    (h : parse e.uni e.caseSensitive void d.text = .ok roots) (hn : InForest roots n) (ht : n.tag = some tag) :
    ∃ a, NameAt d.text (n.start + 1) tag a ∧
      ∀ p, a ≤ d.offsetAt p → d.offsetAt p ≤ a + tag.length → d.offsetAt p < n.startTagEnd.getD n.stop →
        doHover e d p roots = .ok (tagAnswer e tag ⟨d.posAt a, d.posAt (a + tag.length)⟩) := by
  obtain ⟨a, h1, h2⟩ := C42_start_tag_name e.caseSensitive void e d roots n tag h hn ht
  refine ⟨a, h1, fun p h3 h4 h5 => ?_⟩
  obtain ⟨_, _, _, w, _, _, h6⟩ := id h1
  obtain ⟨h7, h8⟩ := in_start_tag h hn (o := d.offsetAt p) (by omega) h5
  exact h2 p h7 h8 h3 h4

/-- C88: with the cursor on the name of an attribute of an element of the tree, hover answers what the data providers
know about the attribute for this element. -/
theorem C88_attribute_name (void : List Str) (e : HoverEnv) (d : TextDoc) (cps : List Nat) (roots : List Node) (n : Node)
    (tag k : Str) (a : Attr) (p : Pos) (hd : Lawful d) (hu : Utf8 cps d.text)
    (h : parse e.uni e.caseSensitive void d.text = .ok roots) (hn : InForest roots n) (ht : n.tag = some tag)
    (ha : (k, a) ∈ n.attributes) (h1 : a.offset ≤ d.offsetAt p) (h2 : d.offsetAt p ≤ a.offset + k.length)
    (h3 : d.offsetAt p < n.startTagEnd.getD n.stop) :
    doHover e d p roots =
      .ok (attrAnswer e tag k (d.offsetAt p) ⟨d.posAt a.offset, d.posAt (a.offset + k.length)⟩) :=
  hover_attr_name hd hu h hn ht ha h1 h2 h3

/-- C88: with the cursor on the value of an attribute of an element of the tree, and not on a character reference, hover
answers what the participants or the data providers know about this value of the attribute. -/
theorem C88_attribute_value (void : List Str) (e : HoverEnv) (d : TextDoc) (cps : List Nat) (roots : List Node) (n : Node)
    (tag k v w : Str) (x i : Nat) (p : Pos) (hd : Lawful d) (hc : Columns d) (hp : Exact d p) (hu : Utf8 cps d.text)
    (h : parse e.uni e.caseSensitive void d.text = .ok roots) (hn : InForest roots n) (ht : n.tag = some tag)
    (ha : (k, ⟨some v, x⟩) ∈ n.attributes) (hne : v ≠ []) (hw : WrittenAt d.text k v x i) (hv : unquoted v w)
    (h1 : i ≤ d.offsetAt p) (h2 : d.offsetAt p ≤ i + v.length) (h3 : d.offsetAt p < n.startTagEnd.getD n.stop)
    (hent : ∀ k m, ¬ EntityAt d.text (d.offsetAt p) k m) :
    doHover e d p roots = .ok (valueAnswer e tag k w ⟨d.posAt i, d.posAt (i + v.length)⟩) :=
  hover_attr_value hd hc hp hu h hn ht ha hne hw hv h1 h2 h3 hent

/-- C88: where the value of an attribute of the tree is written. -/
theorem C88_value_place (u : Uni) (cs : Bool) (void : List Str) (src : Str) (roots : List Node) (n : Node) (k v : Str) (x : Nat)
    (h : parse u cs void src = .ok roots) (hn : InForest roots n) (ha : (k, ⟨some v, x⟩) ∈ n.attributes) :
    ∃ i, WrittenAt src k v x i ∧ (∀ j, WrittenAt src k v x j → j = i) ∧ n.start < x ∧ x < i ∧
      i + v.length ≤ n.startTagEnd.getD n.stop := by
  obtain ⟨_, h1, w, h2, h3, h4, _⟩ := (parse_done h hn).attrs _ ha
  refine ⟨x + (k ++ w ++ b!"=").length, ⟨w, h2, h3, rfl⟩, fun j hj => written_unique hj ⟨w, h2, h3, rfl⟩, h1, ?_, ?_⟩
  · simp only [List.length_append]
    have : (b!"=").length = 1 := rfl
    omega
  · rw [List.length_append] at h4
    dsimp only at h4
    show _ ≤ n.startTagEnd.getD n.stop
    rw [Nat.add_assoc]
    exact h4

/-- C88: in a start tag of a UTF-8 document that the parser reads, hovering never panics. -/
theorem C88_no_panic (void : List Str) (e : HoverEnv) (d : TextDoc) (cps : List Nat) (roots : List Node) (n : Node) (p : Pos)
    (hd : Lawful d) (hc : Columns d) (hp : Exact d p) (hu : Utf8 cps d.text)
    (h : parse e.uni e.caseSensitive void d.text = .ok roots) (hn : InForest roots n)
    (h1 : n.start ≤ d.offsetAt p) (h2 : d.offsetAt p < n.startTagEnd.getD n.stop) : ∃ a, doHover e d p roots = .ok a :=
  hover_tag_total hd hc hp hu h hn h1 h2

/-- C88: in an end tag of a UTF-8 document that the parser reads, hovering never panics. -/
theorem C88_end_tag_no_panic (void : List Str) (e : HoverEnv) (d : TextDoc) (cps : List Nat) (roots : List Node) (n : Node)
    (b : Nat) (p : Pos) (hd : Lawful d) (hc : Columns d) (hp : Exact d p) (hu : Utf8 cps d.text)
    (h : parse e.uni e.caseSensitive void d.text = .ok roots) (hn : InForest roots n) (hb : n.endTagStart = some b)
    (h1 : b ≤ d.offsetAt p) (h2 : d.offsetAt p < n.stop) : ∃ a, doHover e d p roots = .ok a := by
  obtain ⟨ts, hts, _⟩ := C13_one_node_per_bracket _ _ _ _ _ h
  refine hover_uncut hd hc hp hu (⟨h, hts⟩ : Doc _ _ _ _ _ _) fun m hm hbe => ?_
  exfalso
  obtain ⟨g1, g2⟩ := in_end_tag h hn hb h1 h2
  obtain ⟨ps, hf⟩ := findNodeAt_of_covers h hn g1 g2
  obtain ⟨ps', hf'⟩ := findNodeAt_of_covers h hm.mem hm.covers hm.inner
  rw [hf] at hf'
  cases hf'
  have := hbe b hb
  omega

/-- C88: elsewhere in a UTF-8 document that the parser reads, hovering panics only if a tag in front of the cursor is cut
short, and only if that is behind the beginning of the element around the cursor. -/
theorem C88_panics_only (void : List Str) (e : HoverEnv) (d : TextDoc) (cps : List Nat) (roots : List Node) (ts : List Tok)
    (p : Pos) (f : Panic) (hd : Lawful d) (hc : Columns d) (hp : Exact d p) (hu : Utf8 cps d.text)
    (h : parse e.uni e.caseSensitive void d.text = .ok roots)
    (hts : tokens (parserCfg e.uni e.caseSensitive d.text) (.new 0 .WithinContent) = .ok ts)
    (hf : doHover e d p roots = .error f) :
    ∃ n t, Innermost roots n (d.offsetAt p) ∧ BeforeEndTag n (d.offsetAt p) ∧ t ∈ ts ∧ n.start < t.stop ∧
      t.stop < d.offsetAt p ∧ t.offset = t.stop ∧ (t.type = .StartTagClose ∨ t.type = .EndTagClose) := by
  refine Classical.byContradiction fun hno => ?_
  obtain ⟨a, ha⟩ := hover_uncut hd hc hp hu (⟨h, hts⟩ : Doc _ _ _ _ _ _) fun n hn hb t ht h1 h2 => by
    rcases C03_only_pseudo_close_empty _ _ _ hts t ht with g | ⟨g1, g2, _⟩
    · exact g
    · exact absurd ⟨n, t, hn, hb, ht, h1, h2, g1.symm, g2⟩ hno
  rw [hf] at ha
  cases ha

/-- The document of `C42_panics` is of this kind: its tag `<a` is cut short. -/
example : returns (tokens (parserCfg exUni false (b!"<p><i><a <" ++ [0xC2, 0xA0] ++ b!"></i>x</p>")) (.new 0 .WithinContent))
    (fun ts => ts.any fun t => t.offset = t.stop ∧ t.type = .StartTagClose ∧ t.stop = 9) = true := by decide +kernel

/-- In `<b <a b='c'>` the first tag is cut short, and hovering over the second one is as usual. -/
example : returns (parse exUni false [] b!"<b <a b='c'>") (fun roots => infos roots =
      [⟨0, some b!"b", []⟩, ⟨3, some b!"a", [(b!"b", ⟨some b!"'c'", 6⟩)]⟩]) = true := by decide +kernel
example : exHoverAt false b!"<b <a b='c'>" 4 = .ok (some (b!"link", some ⟨⟨0, 4⟩, ⟨0, 5⟩⟩)) := by krfl
example : exHoverAt false b!"<b <a b='c'>" 6 = .ok (some (b!"attr", some ⟨⟨0, 6⟩, ⟨0, 7⟩⟩)) := by krfl
example : exHoverAt false b!"<b <a b='c'>" 9 = .ok (some (b!"value", some ⟨⟨0, 8⟩, ⟨0, 11⟩⟩)) := by krfl
example : WrittenAt b!"<b <a b='c'>" b!"b" b!"'c'" 6 8 ∧ unquoted b!"'c'" b!"c" :=
  ⟨⟨[], by decide, ⟨b!">", by decide⟩, by decide⟩, .inr ⟨39, .inl rfl, rfl⟩⟩

end Html.Props
