import Verif.Proof.LinkTree

/-!
# Document links and the tree (C79)
-/

namespace Html.Props
open Html Spec

/-- **C79.** Every link belongs to a path attribute of an element of the tree: its range is that of a value
of this attribute in the start tag of the element.  This is the value in the tree, unless the attribute is
written again later in the tag. -/
theorem C79_links_are_attributes (e : LinkEnv) (void : List Str) (d : TextDoc) (roots : List Node) (ts : List Tok)
    (links : List DocLink) (h : parse e.uni e.caseSensitive void d.text = .ok roots)
    (hts : tokens (parserCfg e.uni e.caseSensitive d.text) (.new 0 .WithinContent) = .ok ts)
    (hl : findDocumentLinks e d = .ok links) (h1 : ∀ t ∈ ts, t.offset < t.stop)
    (link : DocLink) (hm : link ∈ links) :
    ∃ n tag k a o v i, InForest roots n ∧ n.tag = some tag ∧ (k, a) ∈ n.attributes ∧
      isPathAttribute (e.name tag) (e.name k) = true ∧ link.range = bareRange d i v ∧
      WrittenAt d.text k v o i ∧ n.start < o ∧ i + v.length ≤ n.startTagEnd.getD n.stop ∧
      (a = ⟨some v, o⟩ ∨ i + v.length ≤ a.offset) := by
  obtain ⟨ts', ht', hl'⟩ := C47_exact e d links hl
  unfold linkTokens at ht'
  rw [C78_scanners_agree e.uni e.caseSensitive d.text _ ts hts h1] at ht'
  cases ht'
  have hd : Doc e.uni e.caseSensitive void d.text roots ts := ⟨h, hts⟩
  rw [hl'] at hm
  obtain ⟨x, hx, rfl⟩ := List.mem_map.1 hm
  obtain ⟨q, hq, hqx⟩ := List.mem_filterMap.1 hx
  unfold linkOf at hqx
  split at hqx
  · rename_i hc
    obtain ⟨r, _, rfl⟩ := Option.map_eq_some_iff.1 hqx
    obtain ⟨post, e1⟩ := mem_splits.1 hq
    have hv := hc.1
    unfold isPathValue at hv
    rw [Bool.and_eq_true, decide_eq_true_eq] at hv
    obtain ⟨hk, hp⟩ := hv
    obtain ⟨n, p, t0, mid, y, a, n1, n2, n3, n4, n5, n6, n7, n8, n9, n10, n11, n12⟩ := hd.value_node e1 hk
    have hmem : q.2 ∈ ts := by rw [e1]; simp
    have hlen := (contiguous_le hd.contiguous).2 _ hmem
    have hpos := h1 _ hmem
    have htl := text_len hlen
    obtain ⟨tag, htag⟩ := hd.has_name (p := p) (t0 := t0) (mid := mid) (by rw [e1, n2]) n3 (by rw [← n2]; exact n6)
      (by omega)
    rw [htag] at n5
    · obtain ⟨z, z1, z2⟩ := lastOf_tag (p := p) (t0 := t0) htag.symm
      rw [← n2] at z1
      unfold tagAt attrAt at hp
      rw [z1, lastOf_name n6, Option.map_some, Option.map_some, z2] at hp
      have hst : q.2.offset + (text d.text q.2).length = q.2.stop := by omega
      refine ⟨n, tag, text d.text y, a, y.offset, text d.text q.2, q.2.offset, n1, n5, n11, hp,
        valueRange_eq (Nat.le_of_lt hpos) hlen, n10, n7, by rw [hst]; exact n9, by rw [hst]; exact n12⟩
  · cases hqx

/-- `<p><a href='c'></p>`: the range of the link is that of the value of the attribute. -/
example : returns (findDocumentLinks exLinkEnv (.ref b!"<p><a href='c'></p>")) (fun l => l.map DocLink.range =
      [bareRange (.ref b!"<p><a href='c'></p>") 11 b!"'c'"]) = true ∧
    returns (parse exLinkEnv.uni false [] b!"<p><a href='c'></p>") (fun roots => infos roots =
      [⟨0, some b!"p", []⟩, ⟨3, some b!"a", [(b!"href", ⟨some b!"'c'", 6⟩)]⟩]) = true ∧
    returns (tokens (parserCfg exLinkEnv.uni false b!"<p><a href='c'></p>") (.new 0 .WithinContent)) (fun ts =>
      (∀ t ∈ ts, t.offset < t.stop)) = true := by decide +kernel

/-- **C79.** An attribute that is written twice has two links, but the tree has only the second value. -/
theorem C79_repeated : returns (findDocumentLinks exLinkEnv (.ref b!"<a href=x href=y>")) (fun l => l.map DocLink.range =
      [⟨⟨0, 8⟩, ⟨0, 9⟩⟩, ⟨⟨0, 15⟩, ⟨0, 16⟩⟩]) = true ∧
    returns (parse exLinkEnv.uni false [] b!"<a href=x href=y>") (fun roots => infos roots =
      [⟨0, some b!"a", [(b!"href", ⟨some b!"y", 10⟩)]⟩]) = true := by decide +kernel

/-- **C79.** Where a tag is cut short, the elements have attributes that are no links. -/
theorem C79_cut_short : findDocumentLinks exLinkEnv (.ref b!"<p <video poster=y>") = .ok [] ∧
    returns (parse exLinkEnv.uni false [] b!"<p <video poster=y>") (fun roots => infos roots =
      [⟨0, some b!"p", []⟩, ⟨3, some b!"video", [(b!"poster", ⟨some b!"y", 10⟩)]⟩]) = true ∧
    isPathAttribute b!"video" b!"poster" = true :=
  ⟨by krfl, by decide +kernel, by decide⟩

/-- **C79.** Without a `base` element, every path attribute of the tree whose value refers to something is a
link, and the range of the link is that of the value. -/
theorem C79_attributes_are_links (e : LinkEnv) (void : List Str) (d : TextDoc) (roots : List Node) (ts : List Tok)
    (links : List DocLink) (h : parse e.uni e.caseSensitive void d.text = .ok roots)
    (hts : tokens (parserCfg e.uni e.caseSensitive d.text) (.new 0 .WithinContent) = .ok ts)
    (hl : findDocumentLinks e d = .ok links) (h1 : ∀ t ∈ ts, t.offset < t.stop)
    (h2 : ∀ n tag, InForest roots n → n.tag = some tag → e.name tag ≠ b!"base")
    (n : Node) (tag k v : Str) (o : Nat) (x : Option Str) (hn : InForest roots n) (htag : n.tag = some tag)
    (ha : (k, ⟨some v, o⟩) ∈ n.attributes) (hv : v ≠ []) (hp : isPathAttribute (e.name tag) (e.name k) = true)
    (hx : refersTo e none v = some x) :
    ∃ i, WrittenAt d.text k v o i ∧ ⟨bareRange d i v, finalTarget e d ts x⟩ ∈ links := by
  have hd : Doc e.uni e.caseSensitive void d.text roots ts := ⟨h, hts⟩
  have ht' : linkTokens e d = .ok ts := C78_scanners_agree e.uni e.caseSensitive d.text _ ts hts h1
  have hl' := C53_every_reference e d links ts hl ht' (fun t ht => by
    unfold isBaseTag
    rw [Bool.and_eq_false_iff]
    by_cases hk : t.type = .StartTag
    · right
      obtain ⟨m, m1, m2⟩ := hd.tag_node ht hk
      simpa using h2 m _ m1 m2
    · left; simpa using hk)
  obtain ⟨pre, t, post, y, a1, a2, a3, a4, a5, a6⟩ := hd.has_value hn ha hv
  obtain ⟨m, p, t0, mid, y', a, n1, n2, n3, n4, n5, n6, n7, n8, n9, n10, n11, n12⟩ := hd.value_node a1 a2
  have hyy : y' = y := Option.some.inj ((lastOf_name n6).symm.trans (lastOf_name a4))
  subst hyy
  have hmem : t ∈ ts := by rw [a1]; simp
  have hlen := (contiguous_le hd.contiguous).2 _ hmem
  have hpos := h1 _ hmem
  have hmn : m = n := by
    obtain ⟨c1, _⟩ := C18_attributes_from_own_start_tag _ _ _ _ _ n h hn
    have c2 := c1 k _ ha
    obtain ⟨_, c3, w, _, _, c4, _⟩ := c2
    dsimp only at c3 c4
    simp only [List.length_append] at c4
    have hyl := hd.nonempty (t := y') (by
      obtain ⟨b1, b2, b3, _⟩ := a4
      rw [a1, b3]; simp) (.inr (.inr a4.choose_spec.choose_spec.2.1))
    refine hd.same_tag n1 hn (x := o) (by omega) (by omega) (by omega) (by omega)
  subst hmn
  rw [htag] at n5
  obtain ⟨z, z1, z2⟩ := lastOf_tag (p := p) (t0 := t0) n5
  rw [← n2] at z1
  rw [a3, a5, a6] at n10
  refine ⟨t.offset, n10, ?_⟩
  rw [hl', List.mem_filterMap]
  refine ⟨(pre, t), List.mem_filter.2 ⟨mem_splits.2 ⟨post, a1⟩, ?_⟩, ?_⟩
  · unfold isPathValue tagAt attrAt
    dsimp only
    rw [z1, lastOf_name a4, Option.map_some, Option.map_some, z2, a6, a2]
    exact hp
  · dsimp only
    rw [a3, hx, valueRange_eq (by omega) hlen, a3]
    rfl

/-- The hypotheses: `<p><a href='c'></p>` has no `base` element, and `'c'` refers to something. -/
example : returns (parse exLinkEnv.uni false [] b!"<p><a href='c'></p>") (fun roots =>
      (infos roots).map (fun i => i.tag) = [some b!"p", some b!"a"]) = true ∧
    refersTo exLinkEnv none b!"'c'" = some (some b!"http://h/c") ∧
    isPathAttribute (exLinkEnv.name b!"a") (exLinkEnv.name b!"href") = true :=
  ⟨by decide +kernel, by krfl, by decide +kernel⟩

end Html.Props
