import Verif.Spec.LinkIds
import Verif.Props.LinkTree
import Verif.Proof.HoverTree

/-! # Links to ids: C90 -/

namespace Html
open Spec Props

theorem splits_sorted {α : Type} (ts : List α) : (splits ts).Pairwise (fun a b => a.1.length < b.1.length) := by
  induction ts with
  | nil => exact List.Pairwise.nil
  | cons t ts ih =>
    unfold splits
    refine List.Pairwise.cons ?_ ?_
    · intro b hb
      obtain ⟨c, _, rfl⟩ := List.mem_map.1 hb
      simp
    · rw [List.pairwise_map]
      exact ih.imp (fun h => by simpa using h)

/-- The last id is written in an element of the tree. -/
theorem Doc.idOffset_tree {e : LinkEnv} {void : List Str} {src : Str} {roots : List Node} {ts : List Tok}
    (h : Doc e.uni e.caseSensitive void src roots ts) (h1 : ∀ t ∈ ts, t.offset < t.stop) {id : Str} {place : Nat}
    (hi : idOffset e src ts id = some place) : ∃ n, InForest roots n ∧ WritesId e src n id place := by
  unfold idOffset at hi
  obtain ⟨q, hq, rfl⟩ := Option.map_eq_some_iff.1 hi
  obtain ⟨hq1, hq2⟩ := List.mem_filter.1 (List.mem_of_getLast? hq)
  rw [Bool.and_eq_true, decide_eq_true_eq] at hq2
  obtain ⟨hid, hb⟩ := hq2
  unfold isIdValue at hid
  rw [Bool.and_eq_true, Bool.and_eq_true, decide_eq_true_eq, decide_eq_true_eq] at hid
  obtain ⟨post, e1⟩ := mem_splits.1 hq1
  obtain ⟨n, p, t0, mid, y, a, n1, n2, n3, n4, n5, n6, n7, n8, n9, n10, n11, n12⟩ := h.value_node e1 hid.1.1
  have hmem : q.2 ∈ ts := by rw [e1]; simp
  have hlen := (contiguous_le h.contiguous).2 _ hmem
  have hpos := h1 _ hmem
  have htl := text_len hlen
  have hname := hid.2
  unfold attrAt at hname
  rw [lastOf_name n6, Option.map_some, Option.some.injEq] at hname
  refine ⟨n, n1, ?_⟩
  rcases n12 with rfl | n12
  · refine .inl ⟨_, _, _, n11, hname, fun h0 => ?_, hb, n10⟩
    rw [h0] at htl
    simp only [List.length_nil] at htl
    omega
  · exact .inr ⟨_, _, _, _, n11, hname, hb, n10, n7, by omega⟩

/-- No element of the tree has the id behind the last id. -/
theorem Doc.idOffset_last {e : LinkEnv} {void : List Str} {src : Str} {roots : List Node} {ts : List Tok}
    (h : Doc e.uni e.caseSensitive void src roots ts) {n : Node} {id : Str} {place : Nat} (hn : InForest roots n)
    (hi : HasId e src n id place) : ∃ o, idOffset e src ts id = some o ∧ place ≤ o := by
  obtain ⟨k, v, o, ha, hk, hv, hb, hw⟩ := hi
  obtain ⟨pre, t, post, y, a1, a2, a3, a4, a5, a6⟩ := h.has_value hn ha hv
  obtain ⟨m, p, t0, mid, y', a, n1, n2, n3, n4, n5, n6, n7, n8, n9, n10, n11, n12⟩ := h.value_node a1 a2
  have hyy : y' = y := Option.some.inj ((lastOf_name n6).symm.trans (lastOf_name a4))
  subst hyy
  have hmt : t ∈ ts := by rw [a1]; simp
  have hlen := (contiguous_le h.contiguous).2 _ hmt
  have htl := text_len hlen
  obtain ⟨tag, htag⟩ := h.has_name (p := p) (t0 := t0) (mid := mid) (by rw [a1, n2]) n3 (by rw [← n2]; exact n6) (by
    have := h.nonempty (t := y') (by
      obtain ⟨b1, b2, b3, _⟩ := a4
      rw [a1, b3]; simp) (.inr (.inr a4.choose_spec.choose_spec.2.1))
    omega)
  have hpl : place = t.offset := by
    rw [a3, a5, a6] at n10
    exact written_unique hw n10
  have hmem : (pre, t) ∈ (splits ts).filter (fun p => isIdValue e src p && bare (text src p.2) = id) := by
    refine List.mem_filter.2 ⟨mem_splits.2 ⟨post, a1⟩, ?_⟩
    obtain ⟨z, z1, _⟩ := lastOf_tag (p := p) (t0 := t0) htag.symm
    rw [← n2] at z1
    unfold isIdValue attrAt tagAt
    simp only [lastOf_name a4, z1, Option.isSome_some, Option.map_some, a6, hk, a2, a3, hb, decide_true, Bool.and_self]
  unfold idOffset
  obtain ⟨q, hq⟩ : ∃ q, ((splits ts).filter (fun p => isIdValue e src p && bare (text src p.2) = id)).getLast? = some q := by
    cases hg : ((splits ts).filter (fun p => isIdValue e src p && bare (text src p.2) = id)).getLast? with
    | none => rw [List.getLast?_eq_none_iff] at hg; rw [hg] at hmem; cases hmem
    | some q => exact ⟨q, rfl⟩
  rw [hq]
  refine ⟨q.2.offset, rfl, ?_⟩
  obtain ⟨l, hl⟩ := List.getLast?_eq_some_iff.1 hq
  rw [hl, List.mem_append, List.mem_singleton] at hmem
  have hqm : q ∈ splits ts := (List.mem_filter.1 (List.mem_of_getLast? hq)).1
  rw [hpl]
  rcases hmem with hmem | hmem
  · have hpw := (splits_sorted ts).sublist (List.filter_sublist (p := fun p => isIdValue e src p && bare (text src p.2) = id))
    rw [hl, List.pairwise_append] at hpw
    have hlt := hpw.2.2 _ hmem q (by simp)
    dsimp only at hlt
    obtain ⟨post', e2⟩ := mem_splits.1 hqm
    have hc := h.contiguous
    rw [e2] at hc
    obtain ⟨i, hc1, hc2, _⟩ := contiguous_split hc
    have htm : t ∈ q.1 := by
      have := a1.symm.trans e2
      rcases List.append_eq_append_iff.1 this with ⟨x, x1, x2⟩ | ⟨x, x1, x2⟩
      · cases x with
        | nil => rw [x1] at hlt; simp at hlt
        | cons z x => cases x2; rw [x1]; simp
      · rw [x1] at hlt; simp at hlt; omega
    have hc3 := h.contiguous
    rw [a1] at hc3
    obtain ⟨_, _, ⟨_, hle, _⟩, _⟩ := contiguous_split hc3
    have := (contiguous_le hc1).2 _ htm
    have := hc2.1
    omega
  · rw [← hmem]; exact Nat.le_refl _

end Html

namespace Html.Props
open Html Spec

/-- **C90.** A link to a place in the document leads to the last id of this name that is written in a start tag of an element
of the tree.  If there is none, it leads to the document, and no element has this id. -/
theorem C90_leads_to_id (e : LinkEnv) (void : List Str) (d : TextDoc) (roots : List Node) (ts : List Tok)
    (links : List DocLink) (h : parse e.uni e.caseSensitive void d.text = .ok roots)
    (hts : tokens (parserCfg e.uni e.caseSensitive d.text) (.new 0 .WithinContent) = .ok ts)
    (hl : findDocumentLinks e d = .ok links) (h1 : ∀ t ∈ ts, t.offset < t.stop)
    (h2 : ∀ n tag, InForest roots n → n.tag = some tag → e.name tag ≠ b!"base")
    (n : Node) (tag k v id : Str) (o : Nat) (hn : InForest roots n) (htag : n.tag = some tag)
    (ha : (k, ⟨some v, o⟩) ∈ n.attributes) (hv : v ≠ []) (hp : isPathAttribute (e.name tag) (e.name k) = true)
    (hx : refersTo e none v = some (some (e.uri ++ b!"#" ++ id))) :
    ∃ i target, WrittenAt d.text k v o i ∧ ⟨bareRange d i v, some target⟩ ∈ links ∧
      ((target = e.uri ∧ ∀ m place, InForest roots m → ¬ HasId e d.text m id place) ∨
        ∃ place, target = slashes (positionUri e.uri (d.posAt place)) ∧
          (∃ m, InForest roots m ∧ WritesId e d.text m id place) ∧
          ∀ m place', InForest roots m → HasId e d.text m id place' → place' ≤ place) := by
  have hd : Doc e.uni e.caseSensitive void d.text roots ts := ⟨h, hts⟩
  obtain ⟨i, i1, i2⟩ := C79_attributes_are_links e void d roots ts links h hts hl h1 h2 n tag k v o _ hn htag ha hv hp hx
  have hdrop : (e.uri ++ b!"#" ++ id).drop (e.uri.length + 1) = id := by
    rw [show e.uri.length + 1 = (e.uri ++ b!"#").length by simp, List.drop_left]
  unfold finalTarget at i2
  dsimp only at i2
  rw [if_pos (by rw [List.isPrefixOf_iff_prefix]; exact List.prefix_append _ _), hdrop] at i2
  cases hid : idOffset e d.text ts id with
  | none =>
    rw [hid] at i2
    refine ⟨i, _, i1, i2, .inl ⟨rfl, fun m place hm hm2 => ?_⟩⟩
    obtain ⟨_, h3, _⟩ := hd.idOffset_last hm hm2
    rw [hid] at h3; cases h3
  | some place =>
    rw [hid] at i2
    refine ⟨i, _, i1, i2, .inr ⟨place, rfl, hd.idOffset_tree h1 hid, fun m place' hm hm2 => ?_⟩⟩
    obtain ⟨_, h3, h4⟩ := hd.idOffset_last hm hm2
    rw [hid] at h3; cases h3
    exact h4

/-- **C90.** If the id is written once, in the start tag of `m`, a link to it leads to `m`. -/
theorem C90_unique (e : LinkEnv) (void : List Str) (d : TextDoc) (roots : List Node) (ts : List Tok)
    (links : List DocLink) (h : parse e.uni e.caseSensitive void d.text = .ok roots)
    (hts : tokens (parserCfg e.uni e.caseSensitive d.text) (.new 0 .WithinContent) = .ok ts)
    (hl : findDocumentLinks e d = .ok links) (h1 : ∀ t ∈ ts, t.offset < t.stop)
    (h2 : ∀ n tag, InForest roots n → n.tag = some tag → e.name tag ≠ b!"base")
    (n m : Node) (tag k v id : Str) (o place : Nat) (hn : InForest roots n) (htag : n.tag = some tag)
    (ha : (k, ⟨some v, o⟩) ∈ n.attributes) (hv : v ≠ []) (hp : isPathAttribute (e.name tag) (e.name k) = true)
    (hx : refersTo e none v = some (some (e.uri ++ b!"#" ++ id)))
    (hm : InForest roots m) (hid : HasId e d.text m id place)
    (hone : ∀ m' place', InForest roots m' → WritesId e d.text m' id place' → place' = place) :
    ∃ i, WrittenAt d.text k v o i ∧
      ⟨bareRange d i v, some (slashes (positionUri e.uri (d.posAt place)))⟩ ∈ links := by
  obtain ⟨i, target, i1, i2, i3⟩ := C90_leads_to_id e void d roots ts links h hts hl h1 h2 n tag k v id o hn htag ha hv hp hx
  refine ⟨i, i1, ?_⟩
  rcases i3 with ⟨_, i3⟩ | ⟨x, rfl, ⟨m', hm', i3⟩, _⟩
  · exact absurd hid (i3 m place hm)
  · rw [hone m' x hm' i3] at i2
    exact i2

/-- `<p id='b'><a href=#b></p>`: the hypotheses, and the link. -/
example : returns (parse exLinkEnv.uni false [] b!"<p id='b'><a href=#b></p>") (fun roots => infos roots =
      [⟨0, some b!"p", [(b!"id", ⟨some b!"'b'", 3⟩)]⟩, ⟨10, some b!"a", [(b!"href", ⟨some b!"#b", 13⟩)]⟩]) = true ∧
    refersTo exLinkEnv none b!"#b" = some (some (exLinkEnv.uri ++ b!"#" ++ b!"b")) ∧ bare b!"'b'" = b!"b" ∧
    WrittenAt b!"<p id='b'><a href=#b></p>" b!"id" b!"'b'" 3 6 ∧
    returns (findDocumentLinks exLinkEnv (.ref b!"<p id='b'><a href=#b></p>")) (fun l => l =
      [⟨⟨⟨0, 18⟩, ⟨0, 20⟩⟩, some b!"http://h/a.html#1,7"⟩]) = true :=
  ⟨by decide +kernel, by krfl, by decide, ⟨[], by decide, ⟨_, rfl⟩, by decide⟩, by decide +kernel⟩

/-- **C90 limit.** An id that is written twice in a tag is found although no element has it. -/
theorem C90_repeated_limit :
    returns (findDocumentLinks exLinkEnv (.ref b!"<p id=b id=c><a href=#b>")) (fun l => l =
      [⟨⟨⟨0, 21⟩, ⟨0, 23⟩⟩, some b!"http://h/a.html#1,7"⟩]) = true ∧
    returns (parse exLinkEnv.uni false [] b!"<p id=b id=c><a href=#b>") (fun roots => infos roots =
      [⟨0, some b!"p", [(b!"id", ⟨some b!"c", 8⟩)]⟩, ⟨13, some b!"a", [(b!"href", ⟨some b!"#b", 16⟩)]⟩]) = true := by
  decide +kernel

end Html.Props
