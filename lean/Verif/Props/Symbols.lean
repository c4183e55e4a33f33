import Verif.Proof.Symbols
import Verif.Props.TagServices

/-!
# Properties of document symbols (C31)
-/

namespace Html.Props
open Html Spec

/-- C31: the tree of symbols has the shape of the document: at every address there is a symbol iff
there is a node; its range is the range of the node, and it has the name of the node. -/
theorem C31_same_shape (u : Uni) (cs : Bool) (void : List Str) (d : TextDoc) (roots : List Node)
    (path : List Nat) (h : parse u cs void d.text = .ok roots) :
    (nodeAt roots path = none ∧ symbolAt (findDocumentSymbols2 d roots) path = none) ∨
    ∃ n s, nodeAt roots path = some n ∧ symbolAt (findDocumentSymbols2 d roots) path = some s ∧
      SymbolName n s.name ∧ s.range = ⟨d.posAt n.start, d.posAt n.stop⟩ ∧ s.selection = s.range ∧
      s.children.length = n.children.length := by
  rw [symbols2_eq, symbolAt_map]
  cases hn : nodeAt roots path with
  | none => exact .inl ⟨rfl, rfl⟩
  | some n =>
    have hd := parse_done h (nodeAt_inForest path roots hn)
    exact .inr ⟨n, _, rfl, rfl, nodeToName_spec hd.nodup, rfl, rfl, by rw [symbolOf_children]; simp⟩

/-- C31: with a lawful document the range of a symbol contains the ranges of its children. -/
theorem C31_ranges_nested (u : Uni) (cs : Bool) (void : List Str) (d : TextDoc) (roots : List Node)
    (path : List Nat) (i : Nat) (s s' : Symbol) (hd : Lawful d) (h : parse u cs void d.text = .ok roots)
    (hs : symbolAt (findDocumentSymbols2 d roots) path = some s) (hs' : s.children[i]? = some s') :
    RangeInside s'.range s.range := by
  rw [symbols2_eq, symbolAt_map] at hs
  cases hn : nodeAt roots path with
  | none => rw [hn] at hs; cases hs
  | some n =>
    rw [hn] at hs
    cases hs
    rw [symbolOf_children, List.getElem?_map] at hs'
    cases hc : n.children[i]? with
    | none => rw [hc] at hs'; cases hs'
    | some m =>
      rw [hc] at hs'
      cases hs'
      have hin := nodeAt_inForest path roots hn
      have := (parse_done h hin).nest.2.mem (List.mem_of_getElem? hc)
      exact ⟨hd.mono _ _ this.1, hd.mono _ _ this.2.2⟩

/-- C31: the flat list has one entry for each node, in the order of their starts; the entry has the
name and the range of the node, and as container the name of its parent (none for a root). -/
theorem C31_flat_list (u : Uni) (cs : Bool) (void : List Str) (d : TextDoc) (roots : List Node)
    (h : parse u cs void d.text = .ok roots) :
    ∃ l : List (Option Node × Node),
      l.Pairwise (fun a b => a.2.start < b.2.start) ∧
      (∀ n, InForest roots n → ∃ p, (p, n) ∈ l) ∧
      (∀ p n, (p, n) ∈ l → match p with
        | none => n ∈ roots
        | some m => InForest roots m ∧ n ∈ m.children) ∧
      (findDocumentSymbols d roots).length = l.length ∧
      ∀ (i : Nat) (p : Option Node) (n : Node), l[i]? = some (p, n) →
        ∃ s, (findDocumentSymbols d roots)[i]? = some s ∧ SymbolName n s.name ∧
          s.range = ⟨d.posAt n.start, d.posAt n.stop⟩ ∧
          match p with
          | none => s.container = none
          | some m => ∃ name, s.container = some name ∧ SymbolName m name := by
  have hk := parse_kids h
  have hpar : ∀ p n, (p, n) ∈ preorderAll none roots → match p with
        | none => n ∈ roots
        | some m => InForest roots m ∧ n ∈ m.children := by
    intro p n hx
    obtain ⟨r, hr, hx⟩ := preorderAll_mem_iff.1 hx
    rcases preorder_parent r none _ hx with e | ⟨m, h1, h2, h3⟩
    · cases e; exact hr
    · simp only at h2 h3
      subst h2
      refine ⟨?_, h3⟩
      rcases h1 with rfl | h1
      · exact .root hr
      · exact inForest_up hr h1
  refine ⟨preorderAll none roots, ?_, ?_, hpar, ?_, ?_⟩
  · exact preorderAll_ordered hk.sib (parse_nest h).deep fun n hn => preorder_ordered (hk.done n hn) none
  · intro n hn
    obtain ⟨r, hr, hn⟩ := inForest_cases hn
    obtain ⟨p, hp⟩ := preorder_all r none n hn
    exact ⟨p, preorderAll_mem_iff.2 ⟨r, hr, hp⟩⟩
  · rw [symbols_eq, List.length_map]
  · intro i p n hi
    have hp := hpar p n (List.mem_of_getElem? hi)
    rw [symbols_eq, List.getElem?_map, hi]
    refine ⟨_, rfl, ?_, rfl, ?_⟩
    · have hn : InForest roots n := by
        cases p with
        | none => exact .root hp
        | some m => exact .child hp.1 hp.2
      exact nodeToName_spec (parse_done h hn).nodup
    · cases p with
      | none => rfl
      | some m => exact ⟨_, rfl, nodeToName_spec (parse_done h hp.1).nodup⟩

example : returns (parse exUni false [b!"br"] b!"<p>\n<a id=\"x\" class='u  v'><br></a><></p><i>") (fun roots =>
    (findDocumentSymbols (.ref b!"<p>\n<a id=\"x\" class='u  v'><br></a><></p><i>") roots).map
        (fun s => (s.name, s.container)) =
      [(b!"p", none), (b!"a#x.u.v", some b!"p"), (b!"br", some b!"a#x.u.v"), (b!"?", some b!"p"),
       (b!"i", none)]) = true := by decide +kernel

example : returns (parse exUni false [b!"br"] b!"<p>\n<br></p>") (fun roots =>
    findDocumentSymbols (.ref b!"<p>\n<br></p>") roots =
      [⟨b!"p", ⟨⟨0, 0⟩, ⟨1, 8⟩⟩, none⟩, ⟨b!"br", ⟨⟨1, 0⟩, ⟨1, 4⟩⟩, some b!"p"⟩]) = true := by decide +kernel

end Html.Props
