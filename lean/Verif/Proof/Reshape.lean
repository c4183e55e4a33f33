import Verif.Proof.Settle
import Verif.Props.Parser

/-! # The tree of a formatted document -/

namespace Html
open Spec Props

/-! ### Pieces -/

mutual
def El.pieces : El → List Piece
  | .elem tag kids _ =>
    ⟨false, b!"<" ++ tag.name⟩ :: tag.attrs.map (fun a => ⟨true, attrBody a⟩) ++
      ([⟨false, b!">"⟩] ++ kids.pieces ++ [⟨false, b!"</" ++ tag.name ++ b!">"⟩])
  | .single tag _ => ⟨false, b!"<" ++ tag.name⟩ :: tag.attrs.map (fun a => ⟨true, attrBody a⟩) ++ [⟨true, b!"/>"⟩]
def Flow.pieces : Flow → List Piece
  | .last t => wordPieces t
  | .cons g e r => wordPieces g ++ e.pieces ++ r.pieces
end

theorem attrNodes_pieces (i : Nat) (attrs : List AttrText) :
    attrPieces (attrNodes i attrs) = attrs.map (fun a => ⟨true, attrBody a⟩) := by
  unfold attrPieces
  induction attrs generalizing i with
  | nil => rfl
  | cons a l ih =>
    rw [attrNodes, List.map_cons, List.map_cons, ih]
    congr 2
    unfold attrText attrBody
    cases a.value <;> simp

mutual
theorem El.nodePieces {src : Str} {i : Nat} (e : El) (hat : At src i e.print) : nodePieces src (e.node i) = e.pieces := by
  match e with
  | .single tag slash =>
    simp only [El.node, Spec.nodePieces, El.pieces]
    rw [attrs_byOrder tag i _ rfl]
    unfold TagText.nodes
    rw [attrNodes_pieces]
    rfl
  | .elem tag kids gap =>
    simp only [El.print, List.append_assoc] at hat
    have hb := at_left (at_right (at_right hat))
    simp only [List.length_cons, List.length_nil, Nat.zero_add] at hb
    simp only [El.node, Spec.nodePieces, El.pieces, Option.getD_some]
    rw [attrs_byOrder tag i _ rfl]
    unfold TagText.nodes
    rw [attrNodes_pieces, Flow.kidsPieces kids hb]
theorem Flow.kidsPieces {src : Str} {i : Nat} (f : Flow) (hat : At src i f.print) :
    kidsPieces src i (i + f.print.length) (f.nodes i) = f.pieces := by
  match f with
  | .last t =>
    simp only [Flow.nodes, Spec.kidsPieces, Flow.pieces]
    simp only [Flow.print] at hat
    rw [Flow.print, bytesIn_of_at hat]
  | .cons g e r =>
    simp only [Flow.print] at hat
    simp only [Flow.nodes, Spec.kidsPieces, Flow.pieces]
    rw [(El.start_node _ e).1, (El.start_node _ e).2, bytesIn_of_at (at_left hat),
      El.nodePieces e (at_left (at_right hat)), Flow.print]
    have := Flow.kidsPieces r (at_right (at_right hat))
    simp only [List.length_append]
    rw [show i + (g.length + (e.print.length + r.print.length)) = i + g.length + e.print.length + r.print.length by omega,
      this]
end

theorem tagFormat_pieces (o : FormatOptions) (k : Nat) (single : Bool) (t : TagText) :
    (tagFormat o k single t).attrs.map (fun a => (⟨true, attrBody a⟩ : Piece)) = t.attrs.map (fun a => ⟨true, attrBody a⟩) := by
  unfold tagFormat
  rw [List.map_map]
  rfl

mutual
theorem El.format_pieces {o : FormatOptions} {k : Nat} (e : El) : (e.format o k).pieces = e.pieces := by
  match e with
  | .single tag slash =>
    simp only [El.format, El.pieces]
    rw [tagFormat_pieces]
    rfl
  | .elem tag kids gap =>
    simp only [El.format, El.pieces]
    rw [tagFormat_pieces]
    have : (if kids.isLeaf = true then Flow.last (leafFormat o k (elWraps o k tag kids.print) kids.print)
        else kids.format o (k + 1) (closeText o k (elWraps o k tag kids.print))).pieces = kids.pieces := by
      split
      · rename_i hl
        cases kids with
        | cons g e r => cases hl
        | last t =>
          simp only [Flow.pieces, wordPieces, words_leafFormat, Flow.print]
      · exact Flow.format_pieces kids _ _
    rw [this]
    rfl
theorem Flow.format_pieces {o : FormatOptions} {k : Nat} (f : Flow) (j : Nat) (w : Bool) :
    (f.format o k (closeText o j w)).pieces = f.pieces := by
  match f with
  | .last t => simp only [Flow.format, Flow.pieces, wordPieces, words_close, words_beautify]
  | .cons g e r =>
    simp only [Flow.format, Flow.pieces, wordPieces, words_gapText]
    rw [El.format_pieces e, Flow.format_pieces r]
end

/-- The pieces of the roots. -/
def Flow.rootPieces : Flow → List Piece
  | .last _ => []
  | .cons _ e r => e.pieces ++ r.rootPieces

theorem Flow.docPieces {src : Str} {i : Nat} (f : Flow) (hat : At src i f.print) :
    docPieces src (f.nodes i) = f.rootPieces := by
  unfold Spec.docPieces
  induction f using Flow.rootPieces.induct generalizing i with
  | case1 t => rfl
  | case2 g e r ih =>
    simp only [Flow.print] at hat
    simp only [Flow.nodes, List.flatMap_cons, Flow.rootPieces]
    rw [El.nodePieces e (at_left (at_right hat)), ih (at_right (at_right hat))]

theorem Flow.roots_pieces (o : FormatOptions) (f : Flow) : (f.roots o).rootPieces = f.rootPieces := by
  induction f using Flow.rootPieces.induct with
  | case1 t => rfl
  | case2 g e r ih =>
    simp only [Flow.roots, Flow.rootPieces]
    rw [El.format_pieces, ih]

/-! ### Shapes -/

mutual
def El.shape : El → Shape
  | .elem tag kids _ => .mk (some tag.name) (tag.attrs.map fun a => (a.name, a.value)) true kids.shapes
  | .single tag _ => .mk (some tag.name) (tag.attrs.map fun a => (a.name, a.value)) false []
def Flow.shapes : Flow → List Shape
  | .last _ => []
  | .cons _ e r => e.shape :: r.shapes
end

theorem attrNodes_shape (i : Nat) (attrs : List AttrText) :
    (attrNodes i attrs).map (fun x => (x.1, x.2.value)) = attrs.map fun a => (a.name, a.value) := by
  induction attrs generalizing i with
  | nil => rfl
  | cons a l ih => rw [attrNodes, List.map_cons, List.map_cons, ih]

mutual
theorem El.node_shape (i : Nat) (e : El) : Spec.shape (e.node i) = e.shape := by
  match e with
  | .single tag slash =>
    simp only [El.node, Spec.shape, El.shape, TagText.nodes, attrNodes_shape, Spec.shapes]; rfl
  | .elem tag kids gap =>
    simp only [El.node, Spec.shape, El.shape, TagText.nodes, attrNodes_shape, Flow.nodes_shape]; rfl
theorem Flow.nodes_shape (i : Nat) (f : Flow) : Spec.shapes (f.nodes i) = f.shapes := by
  match f with
  | .last t => rfl
  | .cons g e r => simp only [Flow.nodes, Spec.shapes, Flow.shapes, El.node_shape, Flow.nodes_shape]
end

theorem tagFormat_shape (o : FormatOptions) (k : Nat) (single : Bool) (t : TagText) :
    (tagFormat o k single t).attrs.map (fun a => (a.name, a.value)) = t.attrs.map (fun a => (a.name, a.value)) := by
  unfold tagFormat
  rw [List.map_map]
  rfl

mutual
theorem El.format_shape {o : FormatOptions} {k : Nat} (e : El) : (e.format o k).shape = e.shape := by
  match e with
  | .single tag slash =>
    simp only [El.format, El.shape]
    rw [tagFormat_shape]
    rfl
  | .elem tag kids gap =>
    simp only [El.format, El.shape]
    rw [tagFormat_shape]
    have : (if kids.isLeaf = true then Flow.last (leafFormat o k (elWraps o k tag kids.print) kids.print)
        else kids.format o (k + 1) (closeText o k (elWraps o k tag kids.print))).shapes = kids.shapes := by
      split
      · rename_i hl
        cases kids with
        | cons g e r => cases hl
        | last t => rfl
      · exact Flow.format_shapes kids _
    rw [this]
    rfl
theorem Flow.format_shapes {o : FormatOptions} {k : Nat} (f : Flow) (close : Str) :
    (f.format o k close).shapes = f.shapes := by
  match f with
  | .last t => rfl
  | .cons g e r =>
    simp only [Flow.format, Flow.shapes]
    rw [El.format_shape e, Flow.format_shapes r]
end

theorem Flow.roots_shapes (o : FormatOptions) (f : Flow) : (f.roots o).shapes = f.shapes := by
  induction f using Flow.rootPieces.induct with
  | case1 t => rfl
  | case2 g e r ih =>
    simp only [Flow.roots, Flow.shapes]
    rw [El.format_shape, ih]

/-! ### Settled trees -/

mutual
theorem El.settled_of {o : FormatOptions} {src : Str} {k i : Nat} (e : El) (hat : At src i e.print)
    (h : NodeSettled o src k (e.node i)) : e.Settled o k := by
  match e with
  | .single tag slash => simp only [El.Settled]
  | .elem tag kids gap =>
    simp only [El.Settled]
    cases hl : kids.isLeaf with
    | true => exact .inl rfl
    | false =>
      simp only [El.print, List.append_assoc] at hat
      have hb := at_left (at_right (at_right hat))
      simp only [List.length_cons, List.length_nil, Nat.zero_add] at hb
      simp only [El.node] at h
      unfold NodeSettled at h
      have hne : Flow.nodes (i + tag.print.length + 1) kids ≠ [] := by
        cases kids with
        | last t => cases hl
        | cons g e r => simp [Flow.nodes]
      obtain ⟨h1, h2⟩ := h _ _ _ rfl rfl rfl hne
      rw [bytesIn_of_at hb, wraps_iff o k tag _ i _ rfl (by simp)] at h1
      exact .inr ⟨h1, Flow.settled_of kids hb h2⟩
theorem Flow.settled_of {o : FormatOptions} {src : Str} {k i : Nat} (f : Flow) (hat : At src i f.print)
    (h : KidsSettled o src k i (i + f.print.length) (f.nodes i)) : f.Settled o k := by
  match f with
  | .last t =>
    simp only [Flow.nodes, KidsSettled] at h
    simp only [Flow.print] at hat h
    rw [bytesIn_of_at hat] at h
    exact h
  | .cons g e r =>
    simp only [Flow.nodes, KidsSettled, Flow.print] at h hat
    rw [(El.start_node _ e).1, (El.start_node _ e).2, bytesIn_of_at (at_left hat)] at h
    simp only [Flow.Settled]
    refine ⟨h.1, El.settled_of e (at_left (at_right hat)) h.2.1, Flow.settled_of r (at_right (at_right hat)) ?_⟩
    have := h.2.2
    simp only [List.length_append] at this
    rw [show i + (g.length + (e.print.length + r.print.length)) = i + g.length + e.print.length + r.print.length by omega] at this
    exact this
end

theorem Flow.rootsSettled_of {o : FormatOptions} {src : Str} {i : Nat} (f : Flow) (hat : At src i f.print)
    (h : ∀ n ∈ f.nodes i, NodeSettled o src 0 n) : f.RootsSettled o := by
  induction f using Flow.rootPieces.induct generalizing i with
  | case1 t => trivial
  | case2 g e r ih =>
    simp only [Flow.print] at hat
    simp only [Flow.nodes, List.mem_cons] at h
    exact ⟨El.settled_of e (at_left (at_right hat)) (h _ (.inl rfl)), ih (at_right (at_right hat)) fun n hn => h n (.inr hn)⟩

/-! ### Success -/

theorem Flow.mem_nodes {f : Flow} {i : Nat} {n : Node} (h : n ∈ f.nodes i) : ∃ (e : El) (j : Nat), n = e.node j := by
  induction f using Flow.rootPieces.induct generalizing i with
  | case1 t => cases h
  | case2 g e r ih =>
    rcases List.mem_cons.1 h with h | h
    · exact ⟨e, _, h⟩
    · exact ih h

theorem Flow.named {f : Flow} {i : Nat} {n : Node} (h : Shown (f.nodes i) n) : n.tag ≠ none := by
  have key : ∃ (e : El) (j : Nat), n = e.node j := by
    induction h with
    | root h => exact Flow.mem_nodes h
    | child _ _ h ih =>
      obtain ⟨e, j, rfl⟩ := ih
      cases e with
      | elem tag kids gap => exact Flow.mem_nodes h
      | single tag slash => cases h
  obtain ⟨e, j, rfl⟩ := key
  cases e <;> simp [El.node]

end Html
