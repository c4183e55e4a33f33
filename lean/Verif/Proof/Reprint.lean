import Verif.Proof.Relines

/-! # Printed documents as elements with texts between them -/

namespace Html
open Spec

mutual
/-- An element. -/
inductive El
  | elem (tag : TagText) (kids : Flow) (gap : Str)
  | single (tag : TagText) (slash : Bool)
/-- Elements, with texts in front of, between and behind them. -/
inductive Flow
  | last (t : Str)
  | cons (g : Str) (e : El) (rest : Flow)
end

mutual
def El.print : El → Str
  | .elem tag kids gap => tag.print ++ b!">" ++ kids.print ++ (b!"</" ++ tag.name ++ gap ++ b!">")
  | .single tag slash => tag.print ++ (if slash then b!"/>" else b!">")
def Flow.print : Flow → Str
  | .last t => t
  | .cons g e r => g ++ (e.print ++ r.print)
end

mutual
def El.node (i : Nat) : El → Node
  | .elem tag kids gap =>
    let ste := i + tag.print.length + 1
    let ets := ste + kids.print.length
    ⟨some tag.name, i, ets + tag.name.length + gap.length + 3, kids.nodes ste, true, some ste, some ets, tag.nodes i⟩
  | .single tag slash =>
    let ste := i + tag.print.length + (if slash then 2 else 1)
    ⟨some tag.name, i, ste, [], true, some ste, none, tag.nodes i⟩
def Flow.nodes (i : Nat) : Flow → List Node
  | .last _ => []
  | .cons g e r => e.node (i + g.length) :: r.nodes (i + g.length + e.print.length)
end

mutual
def El.Legal (void : List Str) : El → Prop
  | .elem tag kids gap =>
    tag.Legal ∧ Spaces gap ∧ tag.name ∉ void ∧
      (((LegalName tag.name ∨ TypedScript tag) ∧ kids.Legal void) ∨
        ∃ body, kids = .last body ∧ RawElement tag [.text body])
  | .single tag slash =>
    tag.Legal ∧ (if slash then TagName tag.name ∧ SlashFree tag else LegalName tag.name ∧ tag.name ∈ void)
def Flow.Legal (void : List Str) : Flow → Prop
  | .last t => Plain t
  | .cons g e r => Plain g ∧ e.Legal void ∧ r.Legal void
end

/-- There are no elements. -/
def Flow.isLeaf : Flow → Bool
  | .last _ => true
  | .cons _ _ _ => false

/-- A text in front. -/
def Flow.pre (t : Str) : Flow → Flow
  | .last s => .last (t ++ s)
  | .cons g e r => .cons (t ++ g) e r

theorem Flow.pre_print (t : Str) (k : Flow) : (k.pre t).print = t ++ k.print := by
  cases k <;> simp [Flow.pre, Flow.print]

theorem Flow.pre_nodes (t : Str) (k : Flow) (i : Nat) : (k.pre t).nodes i = k.nodes (i + t.length) := by
  cases k <;> simp [Flow.pre, Flow.nodes, Nat.add_assoc]

theorem Flow.pre_legal {void : List Str} {it : Item} {k : Flow} (h0 : it.isElement = false) (hl : it.Legal void)
    (h : k.Legal void) : (k.pre it.print).Legal void := by
  have hl' : it.Legal [] := by cases it <;> simp [Item.isElement] at h0 <;> simpa only [Item.Legal] using hl
  cases k with
  | last s =>
    simp only [Flow.Legal, Flow.pre] at h ⊢
    exact Plain.cons h0 hl' h
  | cons g e r =>
    simp only [Flow.Legal, Flow.pre] at h ⊢
    exact ⟨Plain.cons h0 hl' h.1, h.2⟩

/-! ### From items -/

mutual
theorem El.ofItem {void : List Str} (it : Item) (hl : it.Legal void) (he : it.isElement = true) :
    ∃ e : El, e.Legal void ∧ e.print = it.print ∧ ∀ i, it.nodes i = [e.node i] := by
  match it, hl with
  | .text _, _ => cases he
  | .comment _, _ => cases he
  | .doctype _ _, _ => cases he
  | .elem tag kids gap, hl =>
    simp only [Item.Legal] at hl
    obtain ⟨h1, h2, h3, h4 | h4⟩ := hl
    · obtain ⟨k, hk1, hk2, hk3⟩ := Flow.ofItems kids h4.2
      refine ⟨.elem tag k gap, ?_, ?_, ?_⟩
      · simp only [El.Legal]; exact ⟨h1, h2, h3, .inl ⟨h4.1, hk1⟩⟩
      · simp only [El.print, Item.print, hk2]
      · intro i; simp only [El.node, Item.nodes, hk2, hk3]
    · have h4' := h4
      obtain ⟨body, hb, _⟩ := h4
      subst hb
      refine ⟨.elem tag (.last body) gap, ?_, ?_, ?_⟩
      · simp only [El.Legal]; exact ⟨h1, h2, h3, .inr ⟨body, rfl, h4'⟩⟩
      · simp [El.print, Item.print, printAll, Flow.print]
      · intro i; simp [El.node, Item.nodes, nodesAll, Flow.nodes, printAll, Item.print, Flow.print]
  | .void tag, hl =>
    simp only [Item.Legal] at hl
    refine ⟨.single tag false, ?_, ?_, ?_⟩
    · simp only [El.Legal]; exact hl
    · simp [El.print, Item.print]
    · intro i; simp [El.node, Item.nodes]
  | .selfClosed tag, hl =>
    simp only [Item.Legal] at hl
    refine ⟨.single tag true, ?_, ?_, ?_⟩
    · simp only [El.Legal]; exact hl
    · simp [El.print, Item.print]
    · intro i; simp [El.node, Item.nodes]
theorem Flow.ofItems {void : List Str} (items : List Item) (hl : AllLegal void items) :
    ∃ k : Flow, k.Legal void ∧ k.print = printAll items ∧ ∀ i, nodesAll i items = k.nodes i := by
  match items, hl with
  | [], _ => exact ⟨.last [], by simp only [Flow.Legal]; exact Plain.nil, rfl, fun i => rfl⟩
  | it :: l, hl =>
    simp only [AllLegal] at hl
    obtain ⟨k, h1, h2, h3⟩ := Flow.ofItems l hl.2
    cases he : it.isElement with
    | false =>
      refine ⟨k.pre it.print, Flow.pre_legal he hl.1 h1, by rw [Flow.pre_print, h2, printAll], fun i => ?_⟩
      rw [Flow.pre_nodes, nodesAll, (nodes_text he i).1, h3]; rfl
    | true =>
      obtain ⟨e, h4, h5, h6⟩ := El.ofItem it hl.1 he
      refine ⟨.cons [] e k, ?_, ?_, fun i => ?_⟩
      · simp only [Flow.Legal]; exact ⟨Plain.nil, h4, h1⟩
      · simp [Flow.print, printAll, h5, h2]
      · simp [Flow.nodes, nodesAll, h6, h3, h5]
end

/-! ### To items -/

theorem plain_items {t : Str} (h : Plain t) (void : List Str) :
    ∃ items, AllLegal void items ∧ printAll items = t ∧ ∀ i, nodesAll i items = [] := by
  obtain ⟨items, h1, h2, h3⟩ := h
  refine ⟨items, plain_legal h1 h2 void, h3, ?_⟩
  clear h2 h3
  induction items with
  | nil => intro i; rfl
  | cons it l ih =>
    intro i
    rw [nodesAll, (nodes_text (h1 it List.mem_cons_self) i).1, ih fun x hx => h1 x (List.mem_cons_of_mem _ hx)]
    rfl

theorem allLegal_append {void : List Str} {a b : List Item} (ha : AllLegal void a) (hb : AllLegal void b) :
    AllLegal void (a ++ b) := by
  induction a with
  | nil => exact hb
  | cons it l ih =>
    simp only [AllLegal] at ha
    rw [List.cons_append]
    simp only [AllLegal]
    exact ⟨ha.1, ih ha.2⟩

theorem printAll_append (a b : List Item) : printAll (a ++ b) = printAll a ++ printAll b := by
  induction a with
  | nil => rfl
  | cons it l ih => rw [List.cons_append, printAll, ih, printAll]; simp

theorem nodesAll_append (i : Nat) (a b : List Item) :
    nodesAll i (a ++ b) = nodesAll i a ++ nodesAll (i + (printAll a).length) b := by
  induction a generalizing i with
  | nil => rfl
  | cons it l ih =>
    rw [List.cons_append, nodesAll, ih, nodesAll, printAll]
    simp [Nat.add_assoc]

mutual
theorem El.toItem {void : List Str} (e : El) (hl : e.Legal void) :
    ∃ it : Item, it.isElement = true ∧ it.Legal void ∧ it.print = e.print ∧ ∀ i, it.nodes i = [e.node i] := by
  match e, hl with
  | .elem tag kids gap, hl =>
    simp only [El.Legal] at hl
    obtain ⟨h1, h2, h3, h4 | ⟨body, rfl, h4⟩⟩ := hl
    · obtain ⟨items, hk1, hk2, hk3⟩ := Flow.toItems kids h4.2
      refine ⟨.elem tag items gap, rfl, ?_, ?_, ?_⟩
      · simp only [Item.Legal]; exact ⟨h1, h2, h3, .inl ⟨h4.1, hk1⟩⟩
      · simp only [El.print, Item.print, hk2]
      · intro i; simp only [El.node, Item.nodes, hk2, hk3]
    · refine ⟨.elem tag [.text body] gap, rfl, ?_, ?_, ?_⟩
      · simp only [Item.Legal]; exact ⟨h1, h2, h3, .inr h4⟩
      · simp [El.print, Item.print, printAll, Flow.print]
      · intro i; simp [El.node, Item.nodes, nodesAll, Flow.nodes, printAll, Item.print, Flow.print]
  | .single tag false, hl =>
    simp only [El.Legal] at hl
    refine ⟨.void tag, rfl, ?_, ?_, ?_⟩
    · simp only [Item.Legal]; exact hl
    · simp [El.print, Item.print]
    · intro i; simp [El.node, Item.nodes]
  | .single tag true, hl =>
    simp only [El.Legal] at hl
    refine ⟨.selfClosed tag, rfl, ?_, ?_, ?_⟩
    · simp only [Item.Legal]; exact hl
    · simp [El.print, Item.print]
    · intro i; simp [El.node, Item.nodes]
theorem Flow.toItems {void : List Str} (k : Flow) (hl : k.Legal void) :
    ∃ items, AllLegal void items ∧ printAll items = k.print ∧ ∀ i, nodesAll i items = k.nodes i := by
  match k, hl with
  | .last t, hl =>
    simp only [Flow.Legal] at hl
    obtain ⟨items, h1, h2, h3⟩ := plain_items hl void
    exact ⟨items, h1, h2, fun i => by rw [h3]; rfl⟩
  | .cons g e r, hl =>
    simp only [Flow.Legal] at hl
    obtain ⟨items, h1, h2, h3⟩ := plain_items hl.1 void
    obtain ⟨it, _, h4, h5, h6⟩ := El.toItem e hl.2.1
    obtain ⟨l, h7, h8, h9⟩ := Flow.toItems r hl.2.2
    refine ⟨items ++ it :: l, allLegal_append h1 ?_, ?_, fun i => ?_⟩
    · simp only [AllLegal]; exact ⟨h4, h7⟩
    · rw [printAll_append, h2, printAll, h5, h8, Flow.print]
    · rw [nodesAll_append, h3, nodesAll, h6, h9, h2, h5, Flow.nodes]; rfl
end

theorem Flow.parse {u : Uni} {cs : Bool} {void : List Str} {k : Flow} {roots : List Node} (hl : k.Legal void)
    (h : parse u cs void k.print = .ok roots) : roots = k.nodes 0 := by
  obtain ⟨items, h1, h2, h3⟩ := k.toItems hl
  rw [← h2] at h
  rw [parse_print h1 h, h3]

end Html
