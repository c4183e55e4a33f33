import Verif.Spec.Symbols
import Verif.Proof.TagServices

/-! # Lemmas on symbols -/

namespace Html
open Spec

/-! ### Names -/

theorem isAsciiWs_iff {b : Nat} : isAsciiWs b = true ↔ Space b := by
  unfold isAsciiWs Space; simp [or_assoc]

theorem words_space {b : Nat} {s : Str} {ws : List Str} (hb : Space b) (h : Words s ws) : Words (b :: s) ws := by
  cases h with
  | done h =>
    refine .done fun x hx => ?_
    rcases List.mem_cons.1 hx with rfl | hx
    · exact hb
    · exact h x hx
  | @word sp w r ws h1 h2 h3 h4 h5 =>
    have : Spaces (b :: sp) := by
      intro x hx; rcases List.mem_cons.1 hx with rfl | hx
      · exact hb
      · exact h1 x hx
    exact .word (sp := b :: sp) this h2 h3 h4 h5

theorem splitWsGo_words : ∀ (s cur : Str), (∀ b ∈ cur, ¬ Space b) →
    Words (cur.reverse ++ s) (splitWsGo cur s)
  | [], cur, h => by
    unfold splitWsGo
    split
    · rename_i e; subst e; exact .done (by intro x hx; cases hx)
    · rename_i e
      have := Words.word (sp := []) (w := cur.reverse) (r := []) (ws := []) (by intro x hx; cases hx)
        (by simpa using e) (by simpa using h) (by simp) (.done (by intro x hx; cases hx))
      simpa using this
  | b :: t, cur, h => by
    unfold splitWsGo
    split
    · rename_i hb
      have hb := isAsciiWs_iff.1 hb
      have ih := splitWsGo_words t [] (by intro x hx; cases hx)
      split
      · rename_i e; subst e; exact words_space hb ih
      · rename_i e
        have := Words.word (sp := []) (w := cur.reverse) (r := b :: t) (by intro x hx; cases hx)
          (by simpa using e) (by simpa using h) (by simp; exact hb) (words_space hb ih)
        simpa using this
    · rename_i hb
      have ih := splitWsGo_words t (b :: cur) (by
        intro x hx; rcases List.mem_cons.1 hx with rfl | hx
        · exact fun hs => hb (isAsciiWs_iff.2 hs)
        · exact h x hx)
      simpa using ih

theorem removeQuotes (s : Str) : removeByte 39 (removeByte 34 s) = noQuotes s := by
  unfold removeByte noQuotes
  rw [List.filter_filter]
  congr 1
  funext b
  rw [Bool.eq_iff_iff]
  simp [and_comm]

theorem attrGet_value {n : Node} {k : Str} (hn : (n.attributes.map (·.1)).Nodup) (v : Str) :
    (attrGet n.attributes k).bind (·.value) = some v ↔ HasValue n k v := by
  unfold HasValue
  generalize n.attributes = m at *
  induction m with
  | nil => simp [attrGet]
  | cons x m ih =>
    obtain ⟨k', a⟩ := x
    simp only [List.map_cons, List.nodup_cons] at hn
    simp only [attrGet]
    split
    · rename_i e; subst e
      simp only [Option.bind_some]
      constructor
      · intro h; exact ⟨a, List.mem_cons_self, h⟩
      · rintro ⟨a', h1, h2⟩
        rcases List.mem_cons.1 h1 with h1 | h1
        · cases h1; exact h2
        · exact absurd (List.mem_map.2 ⟨_, h1, rfl⟩) hn.1
    · rename_i e
      rw [ih hn.2]
      constructor
      · rintro ⟨a', h1, h2⟩; exact ⟨a', List.mem_cons_of_mem _ h1, h2⟩
      · rintro ⟨a', h1, h2⟩
        rcases List.mem_cons.1 h1 with h1 | h1
        · cases h1; exact absurd rfl e
        · exact ⟨a', h1, h2⟩

theorem nodeToName_spec {n : Node} (hn : (n.attributes.map (·.1)).Nodup) :
    SymbolName n (nodeToName n.tag n.attributes) := by
  unfold nodeToName SymbolName
  cases ht : n.tag with
  | none => exact .inl ⟨rfl, rfl⟩
  | some tag =>
    right
    simp only
    have hno : ∀ k, (attrGet n.attributes k).bind (·.value) = none → ∀ v, ¬ HasValue n k v := by
      intro k h v hv
      rw [(attrGet_value hn v).2 hv] at h; cases h
    split
    · rename_i he
      rw [List.isEmpty_iff] at he
      refine ⟨tag, [], [], rfl, by simp, .inr ⟨?_, rfl⟩, .inr ⟨?_, rfl⟩⟩ <;>
        (rintro v ⟨a, h, _⟩; rw [he] at h; cases h)
    · cases hi : (attrGet n.attributes b!"id").bind (·.value) with
      | none =>
        cases hc : (attrGet n.attributes b!"class").bind (·.value) with
        | none =>
          exact ⟨tag, [], [], rfl, by simp, .inr ⟨hno _ hi, rfl⟩, .inr ⟨hno _ hc, rfl⟩⟩
        | some v =>
          refine ⟨tag, [], _, rfl, ?_, .inr ⟨hno _ hi, rfl⟩, .inl ⟨v, splitWsGo [] (noQuotes v), (attrGet_value hn v).1 hc, ?_, rfl⟩⟩
          rotate_left
          · exact splitWsGo_words _ [] (by intro x hx; cases hx)
          · simp only [removeQuotes, List.append_nil, List.reverse_nil, List.nil_append]
      | some i =>
        cases hc : (attrGet n.attributes b!"class").bind (·.value) with
        | none =>
          exact ⟨tag, _, [], rfl, by simp only [removeQuotes, List.append_nil],
            .inl ⟨i, (attrGet_value hn i).1 hi, rfl⟩, .inr ⟨hno _ hc, rfl⟩⟩
        | some v =>
          refine ⟨tag, _, _, rfl, ?_, .inl ⟨i, (attrGet_value hn i).1 hi, rfl⟩,
            .inl ⟨v, splitWsGo [] (noQuotes v), (attrGet_value hn v).1 hc, ?_, rfl⟩⟩
          rotate_left
          · exact splitWsGo_words _ [] (by intro x hx; cases hx)
          · simp only [removeQuotes, List.reverse_nil, List.nil_append]

/-! ### Shape -/

/-- The symbol of a node. -/
def symbolOf (d : TextDoc) (n : Node) : Symbol :=
  .mk (nodeToName n.tag n.attributes) ⟨d.posAt n.start, d.posAt n.stop⟩ ⟨d.posAt n.start, d.posAt n.stop⟩
    (provideSymbolsAll d n.children [])

theorem provideSymbols_eq (d : TextDoc) (n : Node) (acc : List Symbol) :
    provideSymbols d n acc = acc ++ [symbolOf d n] := by
  cases n; rfl

theorem provideSymbolsAll_eq (d : TextDoc) (l : List Node) : ∀ acc,
    provideSymbolsAll d l acc = acc ++ l.map (symbolOf d) := by
  induction l with
  | nil => intro acc; simp [provideSymbolsAll]
  | cons n l ih => intro acc; rw [provideSymbolsAll, ih, provideSymbols_eq]; simp

theorem symbols2_eq (d : TextDoc) (l : List Node) : findDocumentSymbols2 d l = l.map (symbolOf d) := by
  rw [findDocumentSymbols2, provideSymbolsAll_eq]; rfl

theorem symbolOf_children (d : TextDoc) (n : Node) : (symbolOf d n).children = n.children.map (symbolOf d) := by
  simp only [symbolOf, Symbol.children]
  rw [provideSymbolsAll_eq]; rfl

theorem symbolAt_map (d : TextDoc) : ∀ (p : List Nat) (l : List Node),
    symbolAt (l.map (symbolOf d)) p = (nodeAt l p).map (symbolOf d)
  | [], l => rfl
  | [i], l => by simp [symbolAt, nodeAt]
  | i :: j :: p, l => by
    simp only [symbolAt, nodeAt, List.getElem?_map]
    cases l[i]? with
    | none => rfl
    | some n =>
      simp only [Option.map_some, Option.bind_some]
      rw [symbolOf_children]
      exact symbolAt_map d (j :: p) n.children

theorem nodeAt_inForest : ∀ (p : List Nat) (l : List Node) {n : Node}, nodeAt l p = some n → InForest l n
  | [], l, n, h => by cases h
  | [i], l, n, h => .root (List.mem_of_getElem? h)
  | i :: j :: p, l, n, h => by
    simp only [nodeAt] at h
    cases hi : l[i]? with
    | none => rw [hi] at h; cases h
    | some m =>
      rw [hi, Option.bind_some] at h
      exact inForest_up (List.mem_of_getElem? hi) (nodeAt_inForest (j :: p) _ h)

/-! ### Pre-order -/

mutual
/-- The nodes in pre-order, each with its parent. -/
def preorder (parent : Option Node) : Node → List (Option Node × Node)
  | ⟨tag, start, stop, children, closed, ste, ets, attributes⟩ =>
    (parent, ⟨tag, start, stop, children, closed, ste, ets, attributes⟩) ::
      preorderAll (some ⟨tag, start, stop, children, closed, ste, ets, attributes⟩) children
/-- The nodes of a forest in pre-order. -/
def preorderAll (parent : Option Node) : List Node → List (Option Node × Node)
  | [] => []
  | n :: l => preorder parent n ++ preorderAll parent l
end

theorem preorder_eq (parent : Option Node) (n : Node) :
    preorder parent n = (parent, n) :: preorderAll (some n) n.children := by
  cases n; rfl

/-- The flat symbol of a node with its parent. -/
def flatOf (d : TextDoc) (x : Option Node × Node) : FlatSymbol :=
  ⟨nodeToName x.2.tag x.2.attributes, ⟨d.posAt x.2.start, d.posAt x.2.stop⟩,
    x.1.map fun m => nodeToName m.tag m.attributes⟩

/-- Induction on nodes. -/
theorem Node.ind {P : Node → Prop} (h : ∀ n : Node, (∀ m ∈ n.children, P m) → P n) (n : Node) : P n :=
  Node.rec (motive_1 := P) (motive_2 := fun l => ∀ m ∈ l, P m)
    (fun tag start stop children closed ste ets attrs hc =>
      h ⟨tag, start, stop, children, closed, ste, ets, attrs⟩ hc) (by intro m hm; cases hm)
    (fun _ _ h1 h2 m hm => by
      rcases List.mem_cons.1 hm with rfl | hm
      · exact h1
      · exact h2 m hm) n

theorem walkAll_eq (d : TextDoc) (parent : Option Node) (l : List Node)
    (h : ∀ n ∈ l, ∀ acc, walk (symbolOf d n) (parent.map fun m => nodeToName m.tag m.attributes) acc =
      acc ++ (preorder parent n).map (flatOf d)) : ∀ acc,
    walkAll (l.map (symbolOf d)) (parent.map fun m => nodeToName m.tag m.attributes) acc =
      acc ++ (preorderAll parent l).map (flatOf d) := by
  induction l with
  | nil => intro acc; simp [walkAll, preorderAll]
  | cons n l ih =>
    intro acc
    rw [List.map_cons, walkAll, h n (by simp), ih (fun m hm => h m (by simp [hm])), preorderAll]
    simp

theorem walk_eq (d : TextDoc) (n : Node) : ∀ (parent : Option Node) (acc : List FlatSymbol),
    walk (symbolOf d n) (parent.map fun m => nodeToName m.tag m.attributes) acc =
      acc ++ (preorder parent n).map (flatOf d) := by
  induction n using Node.ind with
  | h n ih =>
    intro parent acc
    have := walkAll_eq d (some n) n.children (fun m hm acc => ih m hm (some n) acc)
    rw [preorder_eq, symbolOf, walk, provideSymbolsAll_eq]
    rw [List.nil_append]
    rw [Option.map_some] at this
    rw [this]
    simp [flatOf]

theorem symbols_eq (d : TextDoc) (roots : List Node) :
    findDocumentSymbols d roots = (preorderAll none roots).map (flatOf d) := by
  have := walkAll_eq d none roots (fun n _ => walk_eq d n none) []
  rw [findDocumentSymbols, symbols2_eq]
  simpa using this

theorem preorderAll_mem_iff {parent : Option Node} {l : List Node} {x : Option Node × Node} :
    x ∈ preorderAll parent l ↔ ∃ n ∈ l, x ∈ preorder parent n := by
  induction l with
  | nil => simp [preorderAll]
  | cons n l ih => simp [preorderAll, ih]

theorem preorder_parent (n : Node) : ∀ (parent : Option Node) (x : Option Node × Node), x ∈ preorder parent n →
    x = (parent, n) ∨ (∃ m, (m = n ∨ InForest n.children m) ∧ x.1 = some m ∧ x.2 ∈ m.children) := by
  induction n using Node.ind with
  | h n ih =>
    intro parent x hx
    rw [preorder_eq, List.mem_cons] at hx
    rcases hx with hx | hx
    · exact .inl hx
    · right
      obtain ⟨m, hm, hx⟩ := preorderAll_mem_iff.1 hx
      rcases ih m hm _ x hx with rfl | ⟨m', hm', h1, h2⟩
      · exact ⟨n, .inl rfl, rfl, hm⟩
      · refine ⟨m', .inr ?_, h1, h2⟩
        rcases hm' with rfl | hm'
        · exact .root hm
        · exact inForest_up hm hm'

theorem preorder_all (n : Node) : ∀ (parent : Option Node) (m : Node), (m = n ∨ InForest n.children m) →
    ∃ p, (p, m) ∈ preorder parent n := by
  induction n using Node.ind with
  | h n ih =>
    intro parent m hm
    rw [preorder_eq]
    rcases hm with rfl | hm
    · exact ⟨parent, List.mem_cons_self⟩
    · obtain ⟨d, hd, hm⟩ := inForest_cases hm
      obtain ⟨p, hp⟩ := ih d hd (some n) m hm
      exact ⟨p, List.mem_cons_of_mem _ (preorderAll_mem_iff.2 ⟨d, hd, hp⟩)⟩

theorem preorder_mem {n : Node} {parent : Option Node} {x : Option Node × Node} (hx : x ∈ preorder parent n) :
    x.2 = n ∨ InForest n.children x.2 := by
  rcases preorder_parent n parent x hx with rfl | ⟨m, h1, h2, h3⟩
  · exact .inl rfl
  · right
    rcases h1 with rfl | h1
    · exact .root h3
    · exact .child h1 h3

theorem preorderAll_ordered {parent : Option Node} {lo hi : Nat} {l : List Node} (h : Siblings lo l hi)
    (hd : ∀ n ∈ l, Deep NestN n)
    (hp : ∀ n ∈ l, (preorder parent n).Pairwise (fun a b => a.2.start < b.2.start)) :
    (preorderAll parent l).Pairwise (fun a b => a.2.start < b.2.start) := by
  induction l generalizing lo with
  | nil => exact .nil
  | cons n l ih =>
    rw [preorderAll, List.pairwise_append]
    refine ⟨hp n (by simp), ih h.2.2 (fun m hm => hd m (by simp [hm])) (fun m hm => hp m (by simp [hm])), ?_⟩
    intro a ha b hb
    obtain ⟨m, hm, hb⟩ := preorderAll_mem_iff.1 hb
    have h1 : a.2.start < n.stop := by
      rcases preorder_mem ha with e | e
      · rw [e]; exact h.2.1
      · have := inForest_inside (hd n (by simp)) e; omega
    have h2 : n.stop ≤ m.start := (h.2.2.mem hm).1
    have h3 : m.start ≤ b.2.start := by
      rcases preorder_mem hb with e | e
      · rw [e]; exact Nat.le_refl _
      · exact (inForest_inside (hd m (by simp [hm])) e).1
    omega

theorem preorder_ordered {c : Cfg} {void : List Str} {n : Node} (h : Deep (Done c void) n) : ∀ parent,
    (preorder parent n).Pairwise (fun a b => a.2.start < b.2.start) := by
  induction h with
  | @mk n h1 h2 ih =>
    intro parent
    have hn : ∀ m ∈ n.children, Deep NestN m := fun m hm => (h2 m hm).imp fun _ => Done.nest
    rw [preorder_eq, List.pairwise_cons]
    refine ⟨fun b hb => ?_, preorderAll_ordered h1.nest.2 hn fun m hm => ih m hm _⟩
    obtain ⟨m, hm, hb⟩ := preorderAll_mem_iff.1 hb
    have h3 : n.start < m.start := by
      cases he : n.startTagEnd with
      | none => rw [(h1.noste he).1] at hm; cases hm
      | some e =>
        obtain ⟨h4, _, h5, _⟩ := h1.ste e he
        have := (h5.mem hm).1
        omega
    have h4 : m.start ≤ b.2.start := by
      rcases preorder_mem hb with e | e
      · rw [e]; exact Nat.le_refl _
      · exact (inForest_inside (hn m hm) e).1
    simp only
    omega

end Html
