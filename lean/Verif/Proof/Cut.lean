import Verif.Proof.Insert
import Verif.Proof.Accept
import Verif.Spec.Cut

/-! # The part of the tree in front of an offset does not depend on what is behind -/

namespace Html
open Spec Props

variable {c : Cfg} {void : List Str} {P : Nat}

theorem cutNode_eq (n : Node) : cutNode P n =
    { n with stop := P, children := cutAll P n.children, closed := false, endTagStart := none } := by
  cases n; rw [cutNode]

theorem cutAll_before {l r : List Node} (h : ∀ m ∈ l, Before P m) : cutAll P (l ++ r) = l ++ cutAll P r := by
  induction l with
  | nil => rfl
  | cons n l ih =>
    obtain ⟨h1, h2⟩ := h n (by simp)
    rw [List.cons_append, cutAll, if_neg h2, if_pos h1, ih (fun m hm => h m (by simp [hm]))]
    rfl

/-- Nodes behind the offset do not matter. -/
theorem cutAll_snoc {l : List Node} {n : Node} (h : P ≤ n.start) : cutAll P (l ++ [n]) = cutAll P l := by
  induction l with
  | nil =>
    conv => rhs; rw [cutAll]
    rw [List.nil_append, cutAll, if_neg (fun h0 : OpenAt P n => by have := h0.1; omega), if_neg (by omega)]
  | cons m l ih =>
    rw [List.cons_append, cutAll, ih]
    conv => rhs; rw [cutAll]

/-- The last sibling matters only as it is cut. -/
theorem cutAll_last {l : List Node} {n m : Node} (h : cutAll P [n] = cutAll P [m]) :
    cutAll P (l ++ [n]) = cutAll P (l ++ [m]) := by
  induction l with
  | nil => exact h
  | cons k l ih =>
    rw [List.cons_append, List.cons_append, cutAll, ih]
    conv => rhs; rw [cutAll]

theorem cutAll_open {n : Node} (h : OpenAt P n) : cutAll P [n] = [cutNode P n] := by
  rw [cutAll, if_pos h]

/-! ### Stacks -/

/-- The tree of the open elements, cut. -/
def cutStack (P len : Nat) (n : Node) (l : List Node) : List Node := cutAll P (finishAll len n l).children

variable {len : Nat}

/-- Open elements that look the same when they are cut. -/
structure CutEq (P : Nat) (n m : Node) : Prop where
  start : m.start = n.start
  tag : m.tag = n.tag
  ste : m.startTagEnd = n.startTagEnd
  attrs : m.attributes = n.attributes
  kids : cutAll P m.children = cutAll P n.children

theorem CutEq.cut {n m : Node} (h : CutEq P n m) : cutNode P m = cutNode P n := by
  rw [cutNode_eq, cutNode_eq, h.kids]
  obtain ⟨h1, h2, h3, h4, _⟩ := h
  cases n; cases m
  simp only at h1 h2 h3 h4
  subst h1 h2 h3 h4
  rfl

/-- An element that ends behind the offset, or is left open there. -/
def Reaches (P : Nat) (n : Node) : Prop := P < n.stop ∨ P = n.stop ∧ LeftOpen n

theorem cutStack_congr {n m : Node} {l : List Node} (hl : P ≤ len) (h : CutEq P n m)
    (hn : n.start < P → n.startTagEnd ≠ none ∨ l = [])
    (ho : ∀ q ∈ l.dropLast, q.start < P → q.startTagEnd ≠ none) : cutStack P len m l = cutStack P len n l := by
  induction l generalizing n m with
  | nil => exact h.kids
  | cons q l ih =>
    unfold cutStack
    rw [finishAll, finishAll]
    refine ih ?_ ?_ ?_
    · refine ⟨rfl, rfl, rfl, rfl, cutAll_last ?_⟩
      by_cases hs : P ≤ n.start
      · have h1 : cutAll P ([] ++ [({ m with stop := len, closed := false } : Node)]) = cutAll P [] :=
          cutAll_snoc (by simp only; rw [h.start]; exact hs)
        have h2 : cutAll P ([] ++ [({ n with stop := len, closed := false } : Node)]) = cutAll P [] := cutAll_snoc hs
        exact h1.trans h2.symm
      · have hs : n.start < P := by omega
        have hne := (hn hs).resolve_right (by simp)
        have hr : P < len ∨ P = len := by omega
        rw [cutAll_open (n := { m with stop := len, closed := false }),
          cutAll_open (n := { n with stop := len, closed := false })]
        · congr 1
          exact CutEq.cut (n := { n with stop := len, closed := false }) (m := { m with stop := len, closed := false })
            ⟨h.start, h.tag, h.ste, h.attrs, h.kids⟩
        · exact ⟨hs, hr.imp id fun e => ⟨e, rfl, hne⟩⟩
        · exact ⟨by simp only; rw [h.start]; exact hs, hr.imp id fun e => ⟨e, rfl, by simp only; rw [h.ste]; exact hne⟩⟩
    · intro hq
      cases l with
      | nil => exact .inr rfl
      | cons q2 l => exact .inl (ho q (by simp) hq)
    · intro k hk
      cases l with
      | nil => cases hk
      | cons q2 l => exact ho k (by simp [List.dropLast, hk])

/-- An open element that begins behind the offset does not matter. -/
theorem cutStack_new {n q : Node} {l : List Node} (hl : P ≤ len) (h : P ≤ n.start)
    (ho : ∀ q' ∈ (q :: l).dropLast, q'.start < P → q'.startTagEnd ≠ none) :
    cutStack P len n (q :: l) = cutStack P len q l := by
  unfold cutStack
  rw [finishAll]
  refine cutStack_congr hl ⟨rfl, rfl, rfl, rfl, cutAll_snoc h⟩ ?_ ?_
  · intro hq
    cases l with
    | nil => exact .inr rfl
    | cons q2 l => exact .inl (ho q (by simp) hq)
  · intro k hk
    cases l with
    | nil => cases hk
    | cons q2 l => exact ho k (by simp [List.dropLast, hk])

/-- The innermost open element is finished. -/
theorem cutStack_pop {n n' q : Node} {l : List Node} (hl : P ≤ len)
    (ho : ∀ q' ∈ (n :: q :: l).dropLast, q'.start < P → q'.startTagEnd ≠ none)
    (h1 : n'.start = n.start) (h2 : n'.tag = n.tag) (h3 : n'.startTagEnd = n.startTagEnd) (h4 : n'.attributes = n.attributes)
    (h5 : n'.children = n.children) (h6 : n.start < P → Reaches P n') :
    cutStack P len (q.addChild n') l = cutStack P len n (q :: l) := by
  unfold cutStack
  conv => rhs; rw [finishAll]
  refine cutStack_congr hl ⟨rfl, rfl, rfl, rfl, cutAll_last ?_⟩ ?_ ?_
  · by_cases hs : P ≤ n.start
    · have k1 : cutAll P ([] ++ [n']) = cutAll P [] := cutAll_snoc (by rw [h1]; exact hs)
      have k2 : cutAll P ([] ++ [({ n with stop := len, closed := false } : Node)]) = cutAll P [] := cutAll_snoc hs
      exact k1.trans k2.symm
    · have hs : n.start < P := by omega
      have hne := ho n (by simp) hs
      have hr : P < len ∨ P = len := by omega
      rw [cutAll_open (n := n'), cutAll_open (n := { n with stop := len, closed := false })]
      · congr 1
        exact CutEq.cut (n := { n with stop := len, closed := false }) ⟨h1, h2, h3, h4, by rw [h5]⟩
      · exact ⟨hs, hr.imp id fun e => ⟨e, rfl, hne⟩⟩
      · exact ⟨by rw [h1]; exact hs, h6 hs⟩
  · intro hq
    cases l with
    | nil => exact .inr rfl
    | cons q2 l => exact .inl (ho q (by simp [List.dropLast]) hq)
  · intro k hk
    cases l with
    | nil => cases hk
    | cons q2 l => exact ho k (by simp [List.dropLast, hk])

/-! ### States of the parser -/

/-- The state of the parser behind the offset, when the scanner is in state `st` at `pos`. -/
structure CInv (P len : Nat) (T : List Node) (st : SS) (pos : Nat) (p : PState) : Prop where
  val : cutStack P len p.cur p.parents = T
  old : ∀ q ∈ (p.cur :: p.parents).dropLast, q.start < P → q.startTagEnd ≠ none
  inn : st.inStart = true → P ≤ p.cur.start ∧ p.parents ≠ []
  ends : st.inEnd = true → ∃ e, p.endTagStart = some e ∧ P ≤ e ∧ e < pos

variable {T : List Node}

theorem old_pop {n n' q : Node} {l : List Node} (h : ∀ q' ∈ (n :: q :: l).dropLast, q'.start < P → q'.startTagEnd ≠ none) :
    ∀ q' ∈ (q.addChild n' :: l).dropLast, q'.start < P → q'.startTagEnd ≠ none := by
  intro q' hq'
  obtain ⟨h1, h2⟩ := mem_dropLast_cons.1 hq'
  rcases h2 with rfl | h2
  · exact h q (by
      refine mem_dropLast_cons.2 ⟨by simp, .inr (mem_dropLast_cons.2 ⟨h1, .inl rfl⟩)⟩)
  · exact h q' (mem_dropLast_cons.2 ⟨by simp, .inr (mem_dropLast_cons.2 ⟨h1, .inr h2⟩)⟩)

/-- Nothing but the stack matters outside of tags. -/
structure SInv (P len : Nat) (T : List Node) (p : PState) : Prop where
  val : cutStack P len p.cur p.parents = T
  old : ∀ q ∈ (p.cur :: p.parents).dropLast, q.start < P → q.startTagEnd ≠ none

theorem SInv.pop {p p' : PState} {n : Node} (hp : p.pop = .ok p') (hl : P ≤ len) (h : cutStack P len n p.parents = T)
    (ho : ∀ q ∈ (n :: p.parents).dropLast, q.start < P → q.startTagEnd ≠ none)
    (h1 : p.cur.start = n.start) (h2 : p.cur.tag = n.tag) (h3 : p.cur.startTagEnd = n.startTagEnd)
    (h4 : p.cur.attributes = n.attributes) (h5 : p.cur.children = n.children) (h6 : n.start < P → Reaches P p.cur) : SInv P len T p' ∧ p'.endTagStart = p.endTagStart := by
  unfold PState.pop at hp
  split at hp
  · cases hp
  · rename_i q qs hq
    cases hp
    rw [hq] at h ho
    exact ⟨⟨(cutStack_pop hl ho h1 h2 h3 h4 h5 h6).trans h, old_pop ho⟩, rfl⟩

/-- A start tag that ends its element. -/
theorem SInv.popNew {p p' : PState} {n : Node} (hp : p.pop = .ok p') (hl : P ≤ len) (h : cutStack P len n p.parents = T)
    (ho : ∀ q ∈ (n :: p.parents).dropLast, q.start < P → q.startTagEnd ≠ none)
    (h0 : P ≤ n.start) (h1 : p.cur.start = n.start) : SInv P len T p' := by
  unfold PState.pop at hp
  split at hp
  · cases hp
  · rename_i q qs hq
    cases hp
    rw [hq] at h ho
    refine ⟨?_, old_pop ho⟩
    have ho' : ∀ q' ∈ (q :: qs).dropLast, q'.start < P → q'.startTagEnd ≠ none := fun q' hq' =>
      ho q' (mem_dropLast_cons.2 ⟨by simp, .inr hq'⟩)
    have e : cutStack P len (q.addChild p.cur) qs = cutStack P len q qs := by
      refine cutStack_congr hl ⟨rfl, rfl, rfl, rfl, cutAll_snoc (by rw [h1]; exact h0)⟩ ?_ ?_
      · intro hlt
        cases qs with
        | nil => exact .inr rfl
        | cons q2 l => exact .inl (ho' q (by simp [List.dropLast]) hlt)
      · intro k hk
        cases qs with
        | nil => cases hk
        | cons q2 l => exact ho' k (by simp [List.dropLast, hk])
    rw [← h, cutStack_new hl h0 ho']
    exact e

theorem SInv.popUnclosed {k e : Nat} {p p' : PState} (hl : P ≤ len) (h : SInv P len T p) (he : p.endTagStart = some e)
    (hP : P ≤ e) (hp : popUnclosed k p = .ok p') : SInv P len T p' ∧ p'.endTagStart = some e := by
  induction k generalizing p with
  | zero => cases hp; exact ⟨h, he⟩
  | succ k ih =>
    unfold Html.popUnclosed at hp
    rw [he] at hp
    obtain ⟨e', h1, hp⟩ := bind_ok hp
    cases h1
    obtain ⟨p1, h2, hp⟩ := bind_ok hp
    have hne : p.parents ≠ [] := by
      intro h0
      simp only [PState.pop, h0] at h2
      cases h2
    obtain ⟨k1, k2⟩ := SInv.pop (n := p.cur) h2 hl h.val h.old rfl rfl rfl rfl rfl (fun hs => by
      have : P < e ∨ P = e := by omega
      exact this.imp id fun h3 => ⟨h3, rfl, h.old p.cur (mem_dropLast_cons.2 ⟨hne, .inl rfl⟩) hs⟩)
    exact ih k1 k2 hp

theorem CInv.step {p p' : PState} {s s1 : Sc} (hl : P ≤ len) (h : CInv P len T s.state s.pos p)
    (hf : LocFacts s s1) (hi : InfoFacts s s1)
    (hP : P ≤ s.pos) (ho : s1.tokenOffset = s.pos) (hpos : s.pos ≤ s1.pos) (heo : s1.tokenType = .EndTagOpen → s.pos < s1.pos)
    (hp : parseStep c void p s1 = .ok p') : CInv P len T s1.state s1.pos p' := by
  -- tokens that leave the stack alone
  have idle : ∀ q : PState, q.cur = p.cur → q.parents = p.parents → q.endTagStart = p.endTagStart →
      s1.tokenType ≠ .StartTagOpen → s1.tokenType ≠ .EndTagOpen → CInv P len T s1.state s1.pos q := by
    intro q q1 q2 q3 n1 n2
    refine ⟨by rw [q1, q2]; exact h.val, by rw [q1, q2]; exact h.old, fun hs => ?_, fun hs => ?_⟩
    · rw [q1, q2]; exact h.inn ((hf.g1 hs).resolve_right n1)
    · obtain ⟨e, k1, k2, k3⟩ := h.ends ((hf.g5 hs).resolve_right n2)
      exact ⟨e, by rw [q3]; exact k1, k2, by omega⟩
  -- tokens that change the start tag that is read
  have inner : ∀ q : PState, s.state.inStart = true → q.cur.start = p.cur.start → q.parents = p.parents →
      s1.tokenType ≠ .StartTagOpen → s1.tokenType ≠ .EndTagOpen → CInv P len T s1.state s1.pos q := by
    intro q hs q1 q2 n1 n2
    obtain ⟨k1, k2⟩ := h.inn hs
    obtain ⟨g, gs, hg⟩ := List.exists_cons_of_ne_nil k2
    have ho' : ∀ q' ∈ (g :: gs).dropLast, q'.start < P → q'.startTagEnd ≠ none := fun q' hq' =>
      h.old q' (by rw [hg]; exact mem_dropLast_cons.2 ⟨by simp, .inr hq'⟩)
    refine ⟨?_, ?_, fun _ => ⟨by rw [q1]; exact k1, by rw [q2]; exact k2⟩, fun hs2 => ?_⟩
    · have := h.val
      rw [hg, cutStack_new hl k1 ho'] at this
      rw [q2, hg, cutStack_new hl (by rw [q1]; exact k1) ho', this]
    · intro k hk
      rw [q2, hg] at hk
      rcases (mem_dropLast_cons.1 hk).2 with rfl | hk
      · intro hlt; rw [q1] at hlt; omega
      · exact ho' k hk
    · rcases hf.g5 hs2 with h0 | h0
      · rw [inStart_inEnd hs] at h0; cases h0
      · exact absurd h0 n2
  unfold parseStep at hp
  split at hp
  · rename_i ht
    cases hp
    refine ⟨?_, ?_, fun _ => ⟨by simp only [Node.new]; omega, by simp⟩, fun hs => ?_⟩
    · simp only
      rw [cutStack_new hl (by simp only [Node.new]; omega) h.old]
      exact h.val
    · intro k hk
      rcases (mem_dropLast_cons.1 hk).2 with rfl | hk
      · intro hlt; simp only [Node.new] at hlt; omega
      · exact h.old k hk
    · have := (hf.g4 ht).2.1
      rw [inStart_inEnd this] at hs; cases hs
  · rename_i ht
    obtain ⟨t, _, hp⟩ := bind_ok hp
    cases hp
    exact inner _ (hi.f1 (.inl ht)) rfl rfl (by rw [ht]; simp) (by rw [ht]; simp)
  · rename_i ht
    have hg := hf.g3 (.inl ht)
    obtain ⟨k1, k2⟩ := h.inn hg.1
    have hend : s1.state.inEnd = true → False := fun h0 => by
      rcases hf.g5 h0 with h0 | h0
      · rw [inStart_inEnd hg.1] at h0; cases h0
      · rw [ht] at h0; cases h0
    have out : ∀ q, SInv P len T q → CInv P len T s1.state s1.pos q := fun q hq =>
      ⟨hq.val, hq.old, fun h0 => (by rw [hg.2] at h0; cases h0), fun h0 => (hend h0).elim⟩
    rw [if_neg (by simpa using k2)] at hp
    dsimp only at hp
    split at hp
    · split at hp
      · exact out _ (SInv.popNew (n := p.cur) hp hl h.val h.old k1 rfl)
      · cases hp
        have := inner { p with cur := { p.cur with stop := s1.tokenEnd, startTagEnd := some s1.tokenEnd } } hg.1 rfl rfl
          (by rw [ht]; simp) (by rw [ht]; simp)
        exact out _ ⟨this.val, this.old⟩
    · exact out _ (SInv.popNew (n := p.cur) hp hl h.val h.old k1 rfl)
  · rename_i ht
    have hg := hf.g3 (.inr ht)
    obtain ⟨k1, k2⟩ := h.inn hg.1
    have hend : s1.state.inEnd = true → False := fun h0 => by
      rcases hf.g5 h0 with h0 | h0
      · rw [inStart_inEnd hg.1] at h0; cases h0
      · rw [ht] at h0; cases h0
    rw [if_neg (by simpa using k2)] at hp
    have hq := SInv.popNew (n := p.cur) hp hl h.val h.old k1 rfl
    exact ⟨hq.val, hq.old, fun h0 => (by rw [hg.2] at h0; cases h0), fun h0 => (hend h0).elim⟩
  · rename_i ht
    cases hp
    refine ⟨h.val, h.old, fun h0 => ?_, fun _ => ⟨_, rfl, by omega, by have := heo ht; omega⟩⟩
    rcases hf.g1 h0 with h0 | h0
    · rw [(hf.g6 ht).1] at h0; cases h0
    · rw [ht] at h0; cases h0
  · rename_i ht
    obtain ⟨t, _, hp⟩ := bind_ok hp
    cases hp
    exact idle _ rfl rfl rfl (by rw [ht]; simp) (by rw [ht]; simp)
  · rename_i ht
    obtain ⟨e, e1, e2, e3⟩ := h.ends (hf.g7 (.inr ht))
    dsimp only at hp
    split at hp
    · obtain ⟨p1, h1, hp⟩ := bind_ok hp
      obtain ⟨h2, h3⟩ := SInv.popUnclosed hl ⟨h.val, h.old⟩ e1 e2 h1
      obtain ⟨h4, h5⟩ := SInv.pop (n := p1.cur) hp hl h2.val h2.old rfl rfl rfl rfl rfl (fun hs => .inl (by
        simp only [Sc.tokenEnd]; omega))
      refine ⟨h4.val, h4.old, fun h0 => ?_, fun h0 => ⟨e, by rw [h5]; exact h3, e2, by omega⟩⟩
      rcases hf.g1 h0 with h0 | h0
      · have := inEnd_inStart (hf.g7 (.inr ht)); rw [this] at h0; cases h0
      · rw [ht] at h0; cases h0
    · cases hp
      exact idle _ rfl rfl rfl (by rw [ht]; simp) (by rw [ht]; simp)
  · rename_i ht
    obtain ⟨t, _, hp⟩ := bind_ok hp
    cases hp
    exact inner _ (hi.f1 (.inr ht)) rfl rfl (by rw [ht]; simp) (by rw [ht]; simp)
  · rename_i ht
    have hs : s.state.inStart = true := by rw [hi.f2 ht]; rfl
    split at hp
    · obtain ⟨t, _, hp⟩ := bind_ok hp
      cases hp
      exact inner _ hs rfl rfl (by rw [ht]; simp) (by rw [ht]; simp)
    · cases hp
      exact idle _ rfl rfl rfl (by rw [ht]; simp) (by rw [ht]; simp)
  · rename_i ht
    have hs : s.state.inStart = true := by rw [(hi.f3 ht).1]; rfl
    obtain ⟨t, _, hp⟩ := bind_ok hp
    split at hp
    · obtain ⟨t, _, hp⟩ := bind_ok hp
      cases hp
      exact inner _ hs rfl rfl (by rw [ht]; simp) (by rw [ht]; simp)
    · cases hp
      exact idle _ rfl rfl rfl (by rw [ht]; simp) (by rw [ht]; simp)
  · cases hp
    exact idle _ rfl rfl rfl (by assumption) (by assumption)

theorem Res.cut {p r : PState} {s : Sc} (hl : P ≤ len) (ho : Out c void p s r) (hP : P ≤ s.pos)
    (hlen : s.pos ≤ c.src.length) (h : CInv P len T s.state s.pos p) : cutStack P len r.cur r.parents = T := by
  obtain ⟨f, ho⟩ := ho
  induction f generalizing p s with
  | zero => cases ho
  | succ f ih =>
    unfold parseLoop at ho
    obtain ⟨s1, h1, ho⟩ := bind_ok ho
    have hst := scan_step h1
    split at ho
    · cases ho; exact h.val
    · rename_i hne
      obtain ⟨p1, h2, ho⟩ := bind_ok ho
      obtain ⟨hle, hlen⟩ := hst.pos_le hlen
      exact ih (by omega) hlen (h.step hl (hst.locFacts hne) (hst.infoFacts hne) hP hst.offset_eq hle (fun he => hst.endOpen he) h2) ho

/-! ### At the offset -/

/-- The open elements at the offset. -/
def OldStack (P : Nat) : List Node → Prop
  | [] => False
  | [r] => ∀ n ∈ r.children, Before P n
  | q :: q2 :: qs => OldNode P q ∧ (∀ n ∈ q.children, Before P n) ∧ OldStack P (q2 :: qs)

theorem oldStack_of {hi : Nat} {l l' : List Node} (h : StackOK c void NoLeft hi l) (hh : hi ≤ P) (hs : SRel [] 0 l l') :
    OldStack P l' := by
  induction l generalizing hi l' with
  | nil => exact h.elim
  | cons q qs ih =>
    cases qs with
    | nil =>
      obtain ⟨r', rfl, hr⟩ := hs
      rw [List.nil_append, map_shift_zero] at hr
      intro n hn
      exact Kids.before h hh n (by rw [← hr]; exact hn)
    | cons q2 qs =>
      have hlen := hs.length
      obtain ⟨qs', rfl, hs⟩ := hs
      obtain ⟨ho, h2⟩ := h
      obtain ⟨x, he1, he2, _, _, _, _, he6⟩ := ho.ste
      have hlt : q.start < hi := by have := he6.sib.le; omega
      cases qs' with
      | nil => simp at hlen
      | cons q3 qs' =>
        rw [shift_zero]
        exact ⟨⟨by omega, by rw [he1]; simp, ho.ets⟩, he6.before hh, ih h2 (by omega) hs⟩

theorem srel_self {hi : Nat} {l : List Node} (h : StackOK c void NoLeft hi l) : SRel [] 0 l l := by
  induction l generalizing hi with
  | nil => exact h.elim
  | cons q qs ih =>
    cases qs with
    | nil => exact ⟨q, rfl, by rw [List.nil_append, map_shift_zero]⟩
    | cons q2 qs => exact ⟨q2 :: qs, by rw [shift_zero], ih h.2⟩

/-- They are cut as if the text ended at the offset. -/
theorem cut_finish {n n' : Node} {l : List Node} (hl : P ≤ len) (h : OldStack P ({ n with children := [] } :: l))
    (h1 : n'.start = n.start) (h2 : n'.tag = n.tag) (h3 : n'.startTagEnd = n.startTagEnd) (h4 : n'.attributes = n.attributes)
    (h5 : n'.endTagStart = n.endTagStart) (h6 : cutAll P n.children = n'.children) :
    cutStack P len n l = (finishAll P n' l).children := by
  induction l generalizing n n' with
  | nil => exact h6
  | cons q l ih =>
    unfold cutStack
    rw [finishAll, finishAll]
    obtain ⟨⟨k1, k2, k3⟩, _, k4⟩ := h
    have hq : ∀ m ∈ q.children, Before P m := by
      cases l with
      | nil => exact k4
      | cons q2 l => exact k4.2.1
    refine ih ?_ rfl rfl rfl rfl rfl ?_
    · cases l with
      | nil => intro m hm; simp at hm
      | cons q2 l => exact ⟨⟨k4.1.1, k4.1.2, k4.1.3⟩, by simp, k4.2.2⟩
    · simp only [Node.addChild]
      rw [cutAll_before hq]
      congr 1
      have hr : P < len ∨ P = len := by omega
      rw [cutAll_open (n := { n with stop := len, closed := false }) ⟨k1, hr.imp id fun e => ⟨e, rfl, k2⟩⟩, cutNode_eq]
      congr 1
      simp only at k3
      simp only [h6]
      rw [k3] at h5
      cases n'
      simp only at h1 h2 h3 h4 h5
      subst h1 h2 h3 h4 h5
      rfl

theorem OldStack.cut {n : Node} {l : List Node} (hl : P ≤ len) (h : OldStack P (n :: l)) :
    cutStack P len n l = (finishAll P n l).children := by
  have hb : ∀ m ∈ n.children, Before P m := by
    cases l with
    | nil => exact h
    | cons q l => exact h.2.1
  refine cut_finish hl ?_ rfl rfl rfl rfl rfl (by have := cutAll_before (r := []) hb; simpa [cutAll] using this)
  cases l with
  | nil => intro m hm; simp at hm
  | cons q l => exact ⟨⟨h.1.1, h.1.2, h.1.3⟩, by simp, h.2.2⟩

theorem OldStack.old {n : Node} {l : List Node} (h : OldStack P (n :: l)) :
    ∀ q ∈ (n :: l).dropLast, q.start < P → q.startTagEnd ≠ none := by
  induction l generalizing n with
  | nil => simp
  | cons q l ih =>
    intro m hm _
    rcases (mem_dropLast_cons.1 hm).2 with rfl | hm
    · exact h.1.2
    · exact ih h.2.2 m hm ‹_›

theorem Res.cutOld {p r : PState} {s : Sc} (ho : Out c void p s r) (hs : InText s P) (hP : P ≤ c.src.length)
    (h : OldStack P (p.cur :: p.parents)) :
    cutAll P (finishAll c.src.length r.cur r.parents).children = (finishAll P p.cur p.parents).children := by
  refine Res.cut hP ho (by rw [hs.pos]; exact Nat.le_refl _) (by rw [hs.pos]; exact hP) ?_
  exact ⟨h.cut hP, h.old, fun h0 => (by rw [hs.state] at h0; cases h0), fun h0 => (by rw [hs.state] at h0; cases h0)⟩

/-- Two texts that begin with the same text in content. -/
theorem parse_cut {u : Uni} {cs : Bool} {pre x y : Str} {nx ny : List Node} (hpre : EndsInContent u cs pre)
    (hx : parse u cs void (pre ++ x) = .ok nx) (hy : parse u cs void (pre ++ y) = .ok ny) :
    cutAll pre.length nx = cutAll pre.length ny := by
  obtain ⟨a, t, hp, ht, ha⟩ := hpre
  have e1 : pre ++ x = a ++ (t ++ x) := by rw [hp]; simp
  have e2 : pre ++ y = a ++ (t ++ y) := by rw [hp]; simp
  have hlen : pre.length = a.length + t.length := by rw [hp]; simp
  rw [e1] at hx
  rw [e2] at hy
  obtain ⟨s, q, q', rx, ry, h1, h2, h3, h4, h5, h6, h7⟩ := parse_to_content ha hx hy
  rw [← e1] at h4 h6 h2
  rw [← e2] at h5 h7
  obtain ⟨sA, h8, h9⟩ := h4.text (t := t) (x := x) h1 (by simp [parserCfg, e1]) ht
  obtain ⟨sB, h10, h11⟩ := h5.text (t := t) (x := y) h1 (by simp [parserCfg, e2]) ht
  rw [← hlen] at h8 h10
  have hin : InContent (parserCfg u cs (pre ++ x)) void q pre.length :=
    StackOK.mono h2 (by omega) (by simp [parserCfg])
  have hself : SRel [] 0 (q.cur :: q.parents) (q.cur :: q.parents) := srel_self hin
  have k1 := h9.cutOld h8 (by simp [parserCfg]) (oldStack_of hin (Nat.le_refl _) hself)
  have k2 := h11.cutOld h10 (by simp [parserCfg]) (oldStack_of hin (Nat.le_refl _) h3)
  rw [show (parserCfg u cs (pre ++ x)).src.length = (pre ++ x).length from rfl, h6] at k1
  rw [show (parserCfg u cs (pre ++ y)).src.length = (pre ++ y).length from rfl, h7] at k2
  rw [k1, k2]
  have := finish_rel (len := pre.length) h3
  rw [Nat.add_zero, List.nil_append, map_shift_zero] at this
  exact this.symm

theorem Res.atEnd {p r : PState} {s : Sc} (ho : Out c void p s r) (hs : c.src.length ≤ s.pos) : r = p := by
  obtain ⟨f, ho⟩ := ho
  cases f with
  | zero => cases ho
  | succ f =>
    unfold parseLoop at ho
    obtain ⟨s1, h1, ho⟩ := bind_ok ho
    rw [if_pos ((scan_step h1).eos_iff.2 hs)] at ho
    exact (Except.ok.inj ho).symm

/-- The tree of the text itself. -/
theorem parse_cut_self {u : Uni} {cs : Bool} {pre : Str} {na : List Node} (hpre : EndsInContent u cs pre)
    (hx : parse u cs void pre = .ok na) : cutAll pre.length na = na := by
  obtain ⟨a, t, hp, ht, ha⟩ := hpre
  have hlen : pre.length = a.length + t.length := by rw [hp]; simp
  rw [hp] at hx
  obtain ⟨s, q, q', rx, ry, h1, h2, h3, h4, h5, h6, h7⟩ := parse_to_content ha hx hx
  rw [← hp] at h4 h6 h2
  obtain ⟨sA, h8, h9⟩ := h4.text (t := t) (x := []) h1 (by simp [parserCfg, hp]) ht
  rw [← hlen] at h8
  have hin : InContent (parserCfg u cs pre) void q pre.length := StackOK.mono h2 (by omega) (by simp [parserCfg])
  have k1 := h9.cutOld h8 (by simp [parserCfg]) (oldStack_of hin (Nat.le_refl _) (srel_self hin))
  have k2 := h9.atEnd (by rw [h8.pos]; exact Nat.le_refl _)
  rw [show (parserCfg u cs pre).src.length = pre.length from rfl, h6] at k1
  rw [k1, ← k2, h6]

/-! ### The nodes in front of the offset -/

/-- What a node is cut to. -/
def cutImage (P : Nat) (n : Node) : Node := if OpenAt P n then cutNode P n else n

theorem siblings_start {lo hi : Nat} {l : List Node} (h : Siblings lo l hi) : ∀ n ∈ l, lo ≤ n.start := by
  induction l generalizing lo with
  | nil => simp
  | cons m l ih =>
    intro n hn
    rcases List.mem_cons.1 hn with rfl | hn
    · exact h.1
    · have := ih h.2.2 n hn
      have := h.1
      have := h.2.1
      omega

theorem nameAfter_le {src : Str} {i hi : Nat} {nm : Option Str} (h : NameAfter src i nm hi) : i ≤ hi := by
  cases nm with
  | none => obtain ⟨w, _, _, _, h⟩ := h; omega
  | some t => obtain ⟨w, _, _, _, _, h⟩ := h; omega

theorem mem_cutAll {lo hi : Nat} {l : List Node} {n : Node} (hs : Siblings lo l hi) (hn : n ∈ l) (h : n.start < P) :
    cutImage P n ∈ cutAll P l := by
  induction l generalizing lo with
  | nil => cases hn
  | cons m l ih =>
    rw [cutAll]
    rcases List.mem_cons.1 hn with rfl | hn'
    · unfold cutImage
      split
      · simp
      · simp
    · have h1 := siblings_start hs.2.2 n hn'
      rw [if_neg (fun h2 => by
        rcases h2.2 with h2 | h2
        · omega
        · have := h2.1; omega), if_pos (by have := hs.2.1; omega)]
      exact List.mem_cons_of_mem _ (ih hs.2.2 hn')

theorem of_mem_cutAll {l : List Node} {k : Node} (h : k ∈ cutAll P l) : ∃ n ∈ l, n.start < P ∧ k = cutImage P n := by
  induction l with
  | nil => rw [cutAll] at h; cases h
  | cons m l ih =>
    rw [cutAll] at h
    split at h
    · rename_i ho
      rw [List.mem_singleton] at h
      exact ⟨m, by simp, ho.1, by rw [cutImage, if_pos ho, h]⟩
    · split at h
      · rename_i ho hlt
        rcases List.mem_cons.1 h with rfl | h
        · exact ⟨k, by simp, hlt, by rw [cutImage, if_neg ho]⟩
        · obtain ⟨n, h1, h2⟩ := ih h
          exact ⟨n, by simp [h1], h2⟩
      · cases h

/-- Inside a finished element everything is finished. -/
theorem Done.before {m n : Node} (hm : Done c void m) (hn : n ∈ m.children) (ho : ¬ OpenAt P m) (hlt : m.start < P) :
    n.start < P ∧ ¬ OpenAt P n := by
  have hst : m.stop ≤ P := by
    rcases Nat.lt_or_ge P m.stop with h | h
    · exact absurd ⟨hlt, .inl h⟩ ho
    · exact h
  obtain ⟨e, he⟩ : ∃ e, m.startTagEnd = some e := by
    cases h : m.startTagEnd with
    | none => rw [(hm.noste h).1] at hn; cases hn
    | some e => exact ⟨e, rfl⟩
  obtain ⟨_, _, h1, h2⟩ := hm.ste e he
  obtain ⟨h3, h4⟩ := siblings_stop h1 n hn
  refine ⟨by omega, fun h5 => ?_⟩
  rcases h5.2 with h6 | ⟨h6, h7⟩
  · omega
  · have h8 := (hm.left n hn h7).2
    cases hc : m.closed with
    | false => exact ho ⟨hlt, .inr ⟨by omega, hc, by rw [he]; simp⟩⟩
    | true =>
      cases hx : m.endTagStart with
      | none => rw [(hm.cls hc hx).2.1] at hn; cases hn
      | some x =>
        have h9 : contentEnd m = x := by simp [contentEnd, hx]
        obtain ⟨_, h10, _, nm, _, h11⟩ := hm.ets x hx
        rcases h11 with ⟨h11, h12⟩ | ⟨h11, h12⟩
        · have := nameAfter_le h12.spec
          omega
        · have := nameAfter_le h12.spec
          omega

theorem cut_forward {u : Uni} {cs : Bool} {src : Str} {roots : List Node} {n : Node} (h : parse u cs void src = .ok roots)
    (hn : InForest roots n) (hlt : n.start < P) : InForest (cutAll P roots) (cutImage P n) := by
  induction hn with
  | root hr => exact .root (mem_cutAll (parse_kids h).sib hr hlt)
  | @child m n hm hc ih =>
    have hd := parse_done h hm
    obtain ⟨e, he⟩ : ∃ e, m.startTagEnd = some e := by
      cases h : m.startTagEnd with
      | none => rw [(hd.noste h).1] at hc; cases hc
      | some e => exact ⟨e, rfl⟩
    obtain ⟨h0, _, h1, h2⟩ := hd.ste e he
    have h3 := siblings_start h1 n hc
    have hm' := ih (by omega)
    refine .child hm' ?_
    unfold cutImage at hm' ⊢
    by_cases ho : OpenAt P m
    · rw [if_pos ho, cutNode_eq]
      exact mem_cutAll h1 hc hlt
    · rw [if_neg ho, if_neg (hd.before hc ho (by omega)).2]
      exact hc

theorem cut_backward {u : Uni} {cs : Bool} {src : Str} {roots : List Node} {k : Node} (h : parse u cs void src = .ok roots)
    (hk : InForest (cutAll P roots) k) : ∃ n, InForest roots n ∧ n.start < P ∧ k = cutImage P n := by
  induction hk with
  | root hr =>
    obtain ⟨n, h1, h2⟩ := of_mem_cutAll hr
    exact ⟨n, .root h1, h2⟩
  | @child m k hm hc ih =>
    obtain ⟨n, h1, h2, h3⟩ := ih
    unfold cutImage at h3
    split at h3
    · rw [h3, cutNode_eq] at hc
      obtain ⟨n', h4, h5⟩ := of_mem_cutAll hc
      exact ⟨n', .child h1 h4, h5⟩
    · rename_i ho
      rw [h3] at hc
      obtain ⟨h4, h5⟩ := (parse_done h h1).before hc ho h2
      exact ⟨k, .child h1 hc, h4, by rw [cutImage, if_neg h5]⟩

/-- The nodes of the trees of two texts that begin with the same text in content. -/
theorem cut_transfer {u : Uni} {cs : Bool} {a x y : Str} {nx ny : List Node} {n : Node} (ha : EndsInContent u cs a)
    (hx : parse u cs void (a ++ x) = .ok nx) (hy : parse u cs void (a ++ y) = .ok ny) (hn : InForest nx n)
    (hlt : n.start < a.length) :
    ∃ m, InForest ny m ∧ m.start < a.length ∧ cutImage a.length m = cutImage a.length n := by
  have h1 := cut_forward hx hn hlt
  rw [parse_cut ha hx hy] at h1
  obtain ⟨m, h2, h3, h4⟩ := cut_backward hy h1
  exact ⟨m, h2, h3, h4.symm⟩

end Html
