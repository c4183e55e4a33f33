import Verif.Proof.ParseInfo

/-! # End tags close the elements they name -/

namespace Html
open Spec

variable {c : Cfg} {void : List Str} {x : Nat × Option Str}

/-- The end tag `x` is not inside the content of `n`, or has a different name. -/
def Avoid (c : Cfg) (x : Nat × Option Str) (n : Node) : Prop :=
  ∀ s, n.startTagEnd = some s → s ≤ x.1 → x.1 < contentEnd n →
    ¬ SameName c.uni c.caseSensitive n.tag x.2

def AvoidOpen (c : Cfg) (x : Nat × Option Str) (n : Node) : Prop :=
  ∀ s, n.startTagEnd = some s → s ≤ x.1 → ¬ SameName c.uni c.caseSensitive n.tag x.2

/-- The end tag `x` closed an element of the tree under construction, or is stray. -/
def Good (c : Cfg) (x : Nat × Option Str) (l : List Node) : Prop :=
  (∃ q ∈ l, ∃ n, InForest q.children n ∧ n.endTagStart = some x.1) ∨
  ∀ q ∈ l, AvoidOpen c x q ∧ ∀ d ∈ q.children, Deep (Avoid c x) d

theorem Spec.InForest.sub {a b : List Node} (h : ∀ n ∈ a, n ∈ b) {n : Node} (hn : InForest a n) :
    InForest b n := by
  induction hn with
  | root hm => exact .root (h _ hm)
  | child _ hc ih => exact .child ih hc

theorem Spec.InForest.under {l : List Node} {m n : Node} (hm : m ∈ l) (h : InForest m.children n) :
    InForest l n := by
  induction h with
  | root hx => exact .child (.root hm) hx
  | child _ hc ih => exact .child ih hc

theorem Good.push {n : Node} {l : List Node} (h : Good c x l) (h1 : n.startTagEnd = none)
    (h2 : n.children = []) : Good c x (n :: l) := by
  rcases h with ⟨q, hq, h⟩ | h
  · exact .inl ⟨q, List.mem_cons_of_mem _ hq, h⟩
  · refine .inr fun q hq => ?_
    rcases List.mem_cons.1 hq with rfl | hq
    · exact ⟨fun s hs => by simp [h1] at hs, fun d hd => by simp [h2] at hd⟩
    · exact h q hq

theorem Good.set {n n' : Node} {l : List Node} (h : Good c x (n :: l))
    (h1 : n'.children = n.children) (h2 : AvoidOpen c x n → AvoidOpen c x n') :
    Good c x (n' :: l) := by
  rcases h with ⟨q, hq, h⟩ | h
  · rcases List.mem_cons.1 hq with rfl | hq
    · exact .inl ⟨n', List.mem_cons_self, by rw [h1]; exact h⟩
    · exact .inl ⟨q, List.mem_cons_of_mem _ hq, h⟩
  · refine .inr fun q hq => ?_
    rcases List.mem_cons.1 hq with rfl | hq
    · have := h n List.mem_cons_self
      exact ⟨h2 this.1, by rw [h1]; exact this.2⟩
    · exact h q (List.mem_cons_of_mem _ hq)

theorem Good.pop' {n q : Node} {l : List Node} (h : Good c x (n :: q :: l)) :
    Good c x (q.addChild n :: l) := by
  rcases h with ⟨r, hr, m, h⟩ | h
  · left
    rcases List.mem_cons.1 hr with rfl | hr
    · exact ⟨q.addChild r, List.mem_cons_self, m,
        Spec.InForest.under (m := r) (by simp [Node.addChild]) h.1, h.2⟩
    · rcases List.mem_cons.1 hr with rfl | hr
      · exact ⟨r.addChild n, List.mem_cons_self, m,
          Spec.InForest.sub (fun a ha => by simp [Node.addChild, ha]) h.1, h.2⟩
      · exact ⟨r, List.mem_cons_of_mem _ hr, m, h⟩
  · refine .inr fun r hr => ?_
    rcases List.mem_cons.1 hr with rfl | hr
    · have h1 := h n List.mem_cons_self
      have h2 := h q (by simp)
      refine ⟨h2.1, fun d hd => ?_⟩
      simp only [Node.addChild, List.mem_append, List.mem_singleton] at hd
      rcases hd with hd | rfl
      · exact h2.2 d hd
      · exact ⟨fun s hs hl _ => h1.1 s hs hl, h1.2⟩
    · exact h r (by simp [hr])

theorem Good.pop {p p' : PState} (hp : p.pop = .ok p') (h : Good c x (p.cur :: p.parents)) :
    Good c x (p'.cur :: p'.parents) := by
  unfold PState.pop at hp
  split at hp
  · cases hp
  · rename_i q qs hq
    cases hp
    rw [hq] at h
    exact h.pop'

theorem Good.popUnclosed {k : Nat} {p p' : PState} (h : Good c x (p.cur :: p.parents))
    (hp : popUnclosed k p = .ok p') : Good c x (p'.cur :: p'.parents) := by
  induction k generalizing p with
  | zero => cases hp; exact h
  | succ k ih =>
    unfold Html.popUnclosed at hp
    obtain ⟨e, _, hp⟩ := bind_ok hp
    obtain ⟨p1, h1, hp⟩ := bind_ok hp
    refine ih (Good.pop h1 ?_) hp
    exact h.set rfl id

/-- The document node has no start tag. -/
def RootOK : List Node → Prop
  | [] => False
  | [r] => r.startTagEnd = none
  | _ :: l => RootOK l

theorem RootOK.cons {n : Node} {l : List Node} (h : l ≠ []) : RootOK (n :: l) ↔ RootOK l := by
  cases l with
  | nil => exact absurd rfl h
  | cons => exact Iff.rfl

theorem RootOK.pop {p p' : PState} (hp : p.pop = .ok p') (h : RootOK (p.cur :: p.parents)) :
    RootOK (p'.cur :: p'.parents) := by
  unfold PState.pop at hp
  split at hp
  · cases hp
  · rename_i q qs hq
    cases hp
    rw [hq] at h
    cases qs <;> exact h

theorem RootOK.popUnclosed {k : Nat} {p p' : PState} (h : RootOK (p.cur :: p.parents))
    (hp : popUnclosed k p = .ok p') : RootOK (p'.cur :: p'.parents) := by
  induction k generalizing p with
  | zero => cases hp; exact h
  | succ k ih =>
    unfold Html.popUnclosed at hp
    obtain ⟨e, _, hp⟩ := bind_ok hp
    obtain ⟨p1, h1, hp⟩ := bind_ok hp
    refine ih (RootOK.pop h1 ?_) hp
    revert h
    show RootOK (p.cur :: p.parents) → RootOK ({ p.cur with stop := e, closed := false } :: p.parents)
    cases p.parents <;> exact id

theorem matchDepth_zero {raw : Option Str} {e : Nat} {q : Node} {qs : List Node}
    (h : matchDepth c.uni c.caseSensitive (raw.map (foldName c.uni c.caseSensitive)) q qs = 0)
    (hr : RootOK (q :: qs)) : ∀ n ∈ q :: qs, AvoidOpen c (e, raw) n := by
  induction qs generalizing q with
  | nil =>
    intro n hn s hs
    rw [List.mem_singleton] at hn
    subst hn
    rw [show n.startTagEnd = none from hr] at hs; cases hs
  | cons a l ih =>
    simp only [matchDepth] at h
    split at h
    · simp at h
    · rename_i hm
      intro n hn
      rcases List.mem_cons.1 hn with rfl | hn
      · intro s _ _ hsame
        exact hm ((isSameTag_iff _ _ _ _).2 hsame)
      · exact ih h hr n hn

theorem deep_before {n : Node} {e : Nat} {raw : Option Str} (h : Deep (Done c void) n) (hs : n.stop ≤ e) :
    Deep (Avoid c (e, raw)) n := by
  induction h with
  | mk hd hc ih =>
    rename_i n
    have hce : n.startTagEnd ≠ none → contentEnd n ≤ n.stop := by
      intro hn
      cases he : n.startTagEnd with
      | none => exact absurd he hn
      | some s => exact (hd.ste s he).2.2.2
    refine ⟨fun s h1 _ h2 => ?_, fun d hdm => ih d hdm ?_⟩
    · have := hce (by rw [h1]; simp)
      simp only at h2
      omega
    · cases he : n.startTagEnd with
      | none => rw [(hd.noste he).1] at hdm; cases hdm
      | some s =>
        obtain ⟨_, _, h3, h4⟩ := hd.ste s he
        have := h3.mem_le hdm
        omega

theorem stack_before {e : Nat} {raw : Option Str} {l : List Node} {Q : Node → Prop} {hi : Nat}
    (h : StackOK c void Q hi l) (hle : hi ≤ e) :
    ∀ q ∈ l, ∀ d ∈ q.children, Deep (Avoid c (e, raw)) d := by
  match l, h with
  | [r], h =>
    intro q hq d hd
    rw [List.mem_singleton] at hq; subst hq
    exact deep_before (Kids.done h d hd) (Nat.le_trans ((Kids.sib h).mem_le hd) hle)
  | q :: q2 :: qs, ⟨h, h2⟩ =>
    obtain ⟨s, _, h3, _, _, _, _, hk⟩ := h.ste
    have := hk.sib.le
    intro r hr d hd
    rcases List.mem_cons.1 hr with rfl | hr
    · exact deep_before (hk.done d hd) (Nat.le_trans (hk.sib.mem_le hd) hle)
    · exact stack_before h2 (by omega) r hr d hd

/-- What relates the parser state and the end tags read so far. -/
structure EndInv (c : Cfg) (p : PState) (s : Sc) (r : List (Nat × Option Str) × Option Nat × Option Str) :
    Prop where
  start : p.endTagStart = r.2.1
  name : p.endTagName = r.2.2.map (foldName c.uni c.caseSensitive)
  root : RootOK (p.cur :: p.parents)
  before : ∀ x ∈ r.1, x.1 < s.pos
  good : ∀ x ∈ r.1, Good c x (p.cur :: p.parents)

theorem Step.endClose {s s' : Sc} (h : Step c s s') (ht : s'.tokenType = .EndTagClose) :
    s.state = .AfterOpeningEndTag ∨ s.state = .WithinEndTag := by
  cases h with
  | endTagImmediate h hs => exact .inl hs
  | endTag _ h hs => exact .inr hs
  | content _ _ _ hx => cases hx <;> cases ht
  | scriptContent _ _ _ _ hx => cases hx <;> cases ht
  | styleContent _ _ _ _ _ hx => cases hx <;> cases ht
  | tag _ _ _ hx => cases hx <;> cases ht
  | afterNameTag _ _ _ _ _ hx => cases hx <;> cases ht
  | valueTag _ _ _ _ _ _ _ hx => cases hx <;> cases ht
  | _ => cases ht

theorem PInv.atEnd {p : PState} {s : Sc} (h : PInv c void p s)
    (hs : s.state = .AfterOpeningEndTag ∨ s.state = .WithinEndTag) :
    ∃ e, p.endTagStart = some e ∧ e < s.pos ∧ StackOK c void NoLeft e (p.cur :: p.parents) := by
  unfold PInv at h
  rcases hs with hs | hs
  · simp only [hs] at h
    obtain ⟨e, w, h1, _, _, _, _, h2, _, h3⟩ := h
    exact ⟨e, h1, by omega, h3⟩
  · simp only [hs] at h
    obtain ⟨e, w, h1, _, _, h2, _, _, h3⟩ := h
    exact ⟨e, h1, h2, h3⟩

theorem PInv.ste {p : PState} {s : Sc} (h : PInv c void p s) (hs : s.state.inStart = true) :
    p.cur.startTagEnd = none := by
  unfold PInv at h
  revert h hs
  cases s.state <;> intro h hs <;> first
    | (cases hs; done)
    | exact h.core.ste
    | exact h.tag.core.ste

theorem pop_end {p p' : PState} (h : p.pop = .ok p') :
    p'.endTagStart = p.endTagStart ∧ p'.endTagName = p.endTagName := by
  unfold PState.pop at h
  split at h
  · cases h
  · cases h; exact ⟨rfl, rfl⟩

theorem popUnclosed_end {k : Nat} {p p' : PState} (h : popUnclosed k p = .ok p') :
    p'.endTagStart = p.endTagStart ∧ p'.endTagName = p.endTagName := by
  induction k generalizing p with
  | zero => cases h; exact ⟨rfl, rfl⟩
  | succ k ih =>
    unfold popUnclosed at h
    obtain ⟨e, _, h⟩ := bind_ok h
    obtain ⟨p1, h1, h⟩ := bind_ok h
    have h2 := ih h
    have h3 := pop_end h1
    exact ⟨by rw [h2.1, h3.1], by rw [h2.2, h3.2]⟩

theorem pop_has {p p' : PState} {e : Nat} {raw : Option Str} (h : p.pop = .ok p')
    (he : p.cur.endTagStart = some e) : Good c (e, raw) (p'.cur :: p'.parents) := by
  unfold PState.pop at h
  split at h
  · cases h
  · rename_i q qs hq
    cases h
    exact .inl ⟨_, List.mem_cons_self, p.cur, .root (by simp [Node.addChild]), he⟩

theorem RootOK.set {n n' : Node} {l : List Node} (h : RootOK (n :: l))
    (h1 : l = [] → n'.startTagEnd = n.startTagEnd) : RootOK (n' :: l) := by
  cases l with
  | nil => exact (h1 rfl).trans h
  | cons => exact h

theorem EndInv.step {p p' : PState} {s s' : Sc} {r : List (Nat × Option Str) × Option Nat × Option Str}
    (hi : EndInv c p s r) (hp : PInv c void p s) (hst : Step c s s') (hne : s'.tokenType ≠ .EOS)
    (h : parseStep c void p s' = .ok p') : EndInv c p' s' (readEndTag c.src r s'.tok) := by
  have hf := hst.infoFacts hne
  have hmono : s.pos ≤ s'.pos := by
    obtain ⟨_, h1 | ⟨h0, h1 | h1⟩⟩ := hst.facts
    · rw [h1.2]; exact Nat.le_refl _
    · exact Nat.le_of_lt h1.2.1
    · exact Nat.le_of_eq h1.2.1.symm
  have hty : s'.tok.type = s'.tokenType := rfl
  have hb : ∀ x ∈ r.1, x.1 < s'.pos := fun x hx => Nat.lt_of_lt_of_le (hi.before x hx) hmono
  -- the current element changes
  have set : ∀ n : Node, n.children = p.cur.children →
      (∀ x ∈ r.1, AvoidOpen c x p.cur → AvoidOpen c x n) →
      ∀ x ∈ r.1, Good c x (n :: p.parents) := fun n h1 h2 x hx => (hi.good x hx).set h1 (h2 x hx)
  have new : ∀ (n : Node) (e : Nat), n.startTagEnd = some e → s'.pos ≤ e → ∀ x ∈ r.1, AvoidOpen c x n := by
    intro n e h1 h2 x hx s hs hl
    rw [h1] at hs
    cases hs
    have := hb x hx
    omega
  unfold parseStep at h
  unfold readEndTag
  rw [hty]
  split at h
  · rename_i ht
    cases h
    simp only [ht]
    exact ⟨hi.start, hi.name, hi.root, hb, fun x hx => (hi.good x hx).push rfl rfl⟩
  · rename_i ht
    obtain ⟨t, h1, h⟩ := bind_ok h
    cases h
    simp only [ht]
    have hk := hp.ste (hf.f1 (.inl ht))
    exact ⟨hi.start, hi.name, hi.root.set fun _ => rfl, hb, set _ rfl
      (fun x hx _ s hs => by simp [hk] at hs)⟩
  · rename_i ht
    simp only [ht]
    split at h
    · cases h; exact ⟨hi.start, hi.name, hi.root, hb, hi.good⟩
    · rename_i hpar
      have hpar : p.parents ≠ [] := by simpa using hpar
      simp only at h
      have hset1 := set { p.cur with stop := s'.tokenEnd, startTagEnd := some s'.tokenEnd } rfl
        (fun x hx _ => new _ s'.pos rfl (Nat.le_refl _) x hx)
      split at h
      · split at h
        · have h2 := pop_end h
          refine ⟨by rw [h2.1]; exact hi.start, by rw [h2.2]; exact hi.name,
            RootOK.pop h (hi.root.set fun h0 => absurd h0 hpar), hb, fun x hx => ?_⟩
          exact Good.pop h ((hset1 x hx).set rfl id)
        · cases h
          exact ⟨hi.start, hi.name, hi.root.set fun h0 => absurd h0 hpar, hb, hset1⟩
      · have h2 := pop_end h
        refine ⟨by rw [h2.1]; exact hi.start, by rw [h2.2]; exact hi.name,
          RootOK.pop h (hi.root.set fun h0 => absurd h0 hpar), hb, fun x hx => ?_⟩
        exact Good.pop h ((hi.good x hx).set rfl id)
  · rename_i ht
    simp only [ht]
    split at h
    · cases h; exact ⟨hi.start, hi.name, hi.root, hb, hi.good⟩
    · rename_i hpar
      have hpar : p.parents ≠ [] := by simpa using hpar
      have h2 := pop_end h
      refine ⟨by rw [h2.1]; exact hi.start, by rw [h2.2]; exact hi.name,
        RootOK.pop h (hi.root.set fun h0 => absurd h0 hpar), hb, fun x hx => ?_⟩
      exact Good.pop h (set
        { p.cur with closed := true, stop := s'.tokenEnd, startTagEnd := some s'.tokenEnd } rfl
        (fun x hx _ => new _ s'.pos rfl (Nat.le_refl _) x hx) x hx)
  · rename_i ht
    cases h
    simp only [ht]
    exact ⟨rfl, rfl, hi.root, hb, hi.good⟩
  · rename_i ht
    obtain ⟨t, h1, h⟩ := bind_ok h
    cases h
    simp only [ht]
    refine ⟨hi.start, ?_, hi.root, hb, hi.good⟩
    rw [← text_eq h1]
    rfl
  · rename_i ht
    simp only [ht]
    obtain ⟨e, h1, h2, h3⟩ := hp.atEnd (hst.endClose ht)
    have hre : r.2.1 = some e := by rw [← hi.start]; exact h1
    simp only [hre]
    have hb' : ∀ x ∈ r.1 ++ [(e, r.2.2)], x.1 < s'.pos := by
      intro x hx
      rcases List.mem_append.1 hx with hx | hx
      · exact hb x hx
      · rw [List.mem_singleton] at hx; subst hx; show e < s'.pos; omega
    simp only at h
    split at h
    · rename_i hd
      obtain ⟨p1, hp1, h⟩ := bind_ok h
      have h4 := pop_end h
      have h5 := popUnclosed_end hp1
      have hpar : p1.parents ≠ [] := by
        intro h0
        simp [PState.pop, h0] at h
      refine ⟨by rw [h4.1]; exact h5.1.trans h1, by rw [h4.2]; exact h5.2.trans hi.name,
        RootOK.pop h ((RootOK.popUnclosed hi.root hp1).set fun h0 => absurd h0 hpar), hb', fun x hx => ?_⟩
      rcases List.mem_append.1 hx with hx | hx
      · exact Good.pop h ((Good.popUnclosed (hi.good x hx) hp1).set rfl id)
      · rw [List.mem_singleton] at hx
        subst hx
        exact pop_has h (by simp only; rw [h5.1]; exact h1)
    · rename_i hd
      cases h
      refine ⟨h1, hi.name, hi.root, hb', fun x hx => ?_⟩
      rcases List.mem_append.1 hx with hx | hx
      · exact hi.good x hx
      · rw [List.mem_singleton] at hx
        subst hx
        refine .inr fun q hq => ⟨?_, stack_before h3 (Nat.le_refl _) q hq⟩
        rw [hi.name] at hd
        exact matchDepth_zero (by omega) hi.root q hq
  · rename_i ht
    obtain ⟨t, h1, h⟩ := bind_ok h
    cases h
    simp only [ht]
    exact ⟨hi.start, hi.name, hi.root.set fun _ => rfl, hb, set _ rfl (fun _ _ => id)⟩
  · rename_i ht
    simp only [ht]
    split at h
    · obtain ⟨m, hm, h⟩ := bind_ok h
      cases h
      exact ⟨hi.start, hi.name, hi.root.set fun _ => rfl, hb, set _ rfl (fun _ _ => id)⟩
    · cases h; exact ⟨hi.start, hi.name, hi.root, hb, hi.good⟩
  · rename_i ht
    simp only [ht]
    obtain ⟨t, h1, h⟩ := bind_ok h
    split at h
    · obtain ⟨m, hm, h⟩ := bind_ok h
      cases h
      exact ⟨hi.start, hi.name, hi.root.set fun _ => rfl, hb, set _ rfl (fun _ _ => id)⟩
    · cases h; exact ⟨hi.start, hi.name, hi.root, hb, hi.good⟩
  · rename_i h1 h2 h3 h4 h5 h6 h7 h8 h9 h10
    cases h
    split
    · exact absurd (by assumption) h5
    · exact absurd (by assumption) h6
    · exact absurd (by assumption) h7
    · exact ⟨hi.start, hi.name, hi.root, hb, hi.good⟩

theorem parseLoop_end {f : Nat} {p p' : PState} {s : Sc}
    {r : List (Nat × Option Str) × Option Nat × Option Str} {ts : List Tok}
    (hi : EndInv c p s r) (hp : PInv c void p s) (h : parseLoop c void f p s = .ok p')
    (ht : tokensF c f s = .ok ts) :
    ∀ x ∈ (ts.foldl (readEndTag c.src) r).1, Good c x (p'.cur :: p'.parents) := by
  induction f generalizing p s ts r with
  | zero => cases h
  | succ f ih =>
    unfold parseLoop at h
    unfold tokensF at ht
    obtain ⟨s1, h1, h⟩ := bind_ok h
    rw [h1] at ht
    simp only [bind, Except.bind] at ht
    have hst := scan_step h1
    split at h
    · rename_i he
      rw [if_pos he] at ht
      cases ht; cases h; exact hi.good
    · rename_i hne
      rw [if_neg hne] at ht
      obtain ⟨p1, h2, h⟩ := bind_ok h
      obtain ⟨ts', h3, ht⟩ := bind_ok ht
      cases ht
      obtain ⟨p2, h4, h5⟩ := hp.step hst hne (fun hn => by
        obtain ⟨t, ht⟩ := parseStep_text h2 hn
        exact tokenText_eq ht hst.offset_eq)
      rw [h2] at h4
      cases h4
      rw [List.foldl_cons]
      exact ih (hi.step hp hst hne h2) h5 h h3

theorem finishAll_end {len : Nat} {n : Node} {ps : List Node} (h : Good c x (n :: ps)) :
    Good c x [finishAll len n ps] := by
  induction ps generalizing n with
  | nil => exact h
  | cons q qs ih =>
    rw [finishAll]
    refine ih (Good.pop' (n := { n with stop := len, closed := false }) ?_)
    exact h.set rfl id

end Html
