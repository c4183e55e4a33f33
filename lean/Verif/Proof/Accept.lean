import Verif.Proof.ParseConcat
import Verif.Proof.CompletionClose
import Verif.Proof.Print
import Verif.Spec.Accept

/-! # Parsing a text into which an end tag was inserted -/

namespace Html
open Spec Props

variable {c : Cfg} {void : List Str}

/-! ### Runs of the parser -/

/-- The parser reads these tokens. -/
inductive PRun (c : Cfg) (void : List Str) : PState → Sc → List Tok → PState → Sc → Prop
  | nil (p : PState) (s : Sc) : PRun c void p s [] p s
  | cons {p p1 q : PState} {s s1 s2 : Sc} {ts : List Tok} (h : scan c s = .ok s1) (hne : s1.tokenType ≠ .EOS)
      (hp : parseStep c void p s1 = .ok p1) (hr : PRun c void p1 s1 ts q s2) : PRun c void p s (s1.tok :: ts) q s2

theorem PRun.res {p q : PState} {r : Option PState} {s s2 : Sc} {ts : List Tok} (h : PRun c void p s ts q s2)
    (ho : Res c void p s r) : Res c void q s2 r := by
  induction h with
  | nil p s => exact ho
  | @cons p p1 q s s1 s2 ts h hne hp hr ih =>
    refine ih ?_
    cases r with
    | none =>
      cases (show Fails c void p s from ho) with
      | here h1 => rw [h] at h1; cases h1
      | step h1 _ h2 h3 =>
        rw [h] at h1
        cases h1
        rw [hp] at h2
        cases h2
        exact h3
    | some r =>
      obtain ⟨f, ho⟩ := ho
      cases f with
      | zero => cases ho
      | succ f =>
        unfold parseLoop at ho
        rw [h] at ho
        change (if s1.tokenType = .EOS then _ else _) = _ at ho
        rw [if_neg hne, hp] at ho
        exact ⟨f, ho⟩

theorem PRun.out {p q r : PState} {s s2 : Sc} {ts : List Tok} (h : PRun c void p s ts q s2)
    (ho : Out c void p s r) : Out c void q s2 r := PRun.res h ho

theorem Run.parser {p r : PState} {s s2 : Sc} {ts : List Tok} (h : Run c s ts s2) (ho : Out c void p s r) :
    ∃ q, PRun c void p s ts q s2 ∧ Out c void q s2 r := by
  induction h generalizing p with
  | nil s => exact ⟨p, .nil p s, ho⟩
  | @cons s s1 s2 ts h hne hr ih =>
    obtain ⟨f, ho⟩ := ho
    cases f with
    | zero => cases ho
    | succ f =>
      unfold parseLoop at ho
      rw [h] at ho
      change (if s1.tokenType = .EOS then _ else _) = _ at ho
      rw [if_neg hne] at ho
      obtain ⟨p1, hp, ho⟩ := bind_ok ho
      obtain ⟨q, h1, h2⟩ := ih ⟨f, ho⟩
      exact ⟨q, .cons h hne hp h1, h2⟩

theorem PInv.next {p p1 : PState} {s s1 : Sc} (hi : PInv c void p s) (h : scan c s = .ok s1)
    (hne : s1.tokenType ≠ .EOS) (hp : parseStep c void p s1 = .ok p1) : PInv c void p1 s1 := by
  have hst := scan_step h
  obtain ⟨p2, h3, h4⟩ := hi.step hst hne (fun hn => by
    obtain ⟨t, ht⟩ := parseStep_text hp hn
    exact tokenText_eq ht hst.offset_eq)
  rw [hp] at h3
  cases h3
  exact h4

theorem PRun.inv {p q : PState} {s s2 : Sc} {ts : List Tok} (h : PRun c void p s ts q s2) (hi : PInv c void p s) :
    PInv c void q s2 := by
  induction h with
  | nil p s => exact hi
  | cons h hne hp hr ih => exact ih (hi.next h hne hp)

theorem PRun.split {p q : PState} {s s2 : Sc} {i : List Tok} {t : Tok} (h : PRun c void p s (i ++ [t]) q s2) :
    ∃ p1 s1, PRun c void p s i p1 s1 ∧ scan c s1 = .ok s2 ∧ s2.tok = t ∧ s2.tokenType ≠ .EOS ∧
      parseStep c void p1 s2 = .ok q := by
  induction i generalizing p s with
  | nil =>
    cases h with
    | cons h hne hp hr => cases hr; exact ⟨_, _, .nil _ _, h, rfl, hne, hp⟩
  | cons x i ih =>
    cases h with
    | cons h hne hp hr =>
      obtain ⟨p1, s1, h1, h2⟩ := ih hr
      exact ⟨p1, s1, .cons h hne hp h1, h2⟩

/-- The parser reads the tokens in front of a `>` in the same way in another text that begins with them. -/
theorem PRun.keeps {x : Str} {c' : Cfg} (G : Agree x c c') {s s2 : Sc} {ts i : List Tok} {t : Tok} {p p' q : PState}
    (hr : PRun c void p s ts q s2)
    (hs : s.pos ≤ x.length) (hts : ts = i ++ [t]) (h1 : t.stop = x.length + 1) (h2 : isEndTT t.type = true)
    (h3 : t.offset < t.stop) (h : PShift [] 0 s.state p p') :
    ∃ q', PShift [] 0 s2.state q q' ∧ PRun c' void p' s ts q' s2 := by
  induction hr generalizing i p' with
  | nil p s => simp at hts
  | @cons p p1 q s s1 s2 ts hsc hne hp hr ih =>
    have hst := scan_step hsc
    have hle : ∀ {p q s s2 ts}, PRun c void p s ts q s2 → Run c s ts s2 := by
      intro p q s s2 ts h
      induction h with
      | nil p s => exact .nil s
      | cons h hne hp hr ih => exact .cons h hne ih
    have hE : Ends x s1 ∧ (isEndTT s1.tokenType = false → s1.pos ≤ x.length) := by
      cases i with
      | nil =>
        obtain ⟨e1, e2⟩ := List.cons.inj hts
        have k1 : s1.pos = x.length + 1 := by rw [← h1, ← e1]; rfl
        have k2 : isEndTT s1.tokenType = true := by rw [← h2, ← e1]; rfl
        exact ⟨.inr ⟨k1, k2⟩, fun h0 => by rw [k2] at h0; cases h0⟩
      | cons t0 i =>
        obtain ⟨e1, e2⟩ := List.cons.inj hts
        have hm : t ∈ ts := by rw [e2]; simp
        have := ((hle hr).ge hm).1
        have hs1 : s1.pos ≤ x.length := by omega
        exact ⟨.inl hs1, fun _ => hs1⟩
    have hsc' := scan_keeps G hs s1 hsc hE.1
    have hstep := parseStep_rel (c := c) (c' := c') (void := void) (s1' := s1) h (hst.locFacts hne) (hst.infoFacts hne)
      (tok_shift_zero _).symm G.uni G.case (fun h0 => G.slice (hE.2 h0))
    rw [hp] at hstep
    obtain ⟨q', hq', hrel⟩ := hstep
    cases i with
    | nil =>
      obtain ⟨e1, e2⟩ := List.cons.inj hts
      subst e2
      cases hr
      exact ⟨q', hrel, .cons hsc' hne hq' (.nil _ _)⟩
    | cons t0 i =>
      obtain ⟨e1, e2⟩ := List.cons.inj hts
      have hm : t ∈ ts := by rw [e2]; simp
      have := ((hle hr).ge hm).1
      obtain ⟨q2, k1, k2⟩ := ih (by omega) e2 hrel
      exact ⟨q2, k1, .cons hsc' hne hq' k2⟩

/-! ### Nodes that stay in the tree -/

/-- A finished node with the property is below the nodes `l`. -/
def Has (K : Node → Prop) (l : List Node) : Prop := ∃ q ∈ l, ∃ m, InForest q.children m ∧ K m

/-- One of the open elements `l` (the last one is the document), or a finished node below them, has the property.
(With `b = false` the open elements do not count.) -/
def Kept (b : Bool) (K : Node → Prop) (l : List Node) : Prop := (b = true ∧ ∃ q ∈ l.dropLast, K q) ∨ Has K l

theorem mem_dropLast_cons {α : Type} {x a : α} {l : List α} :
    x ∈ (a :: l).dropLast ↔ l ≠ [] ∧ (x = a ∨ x ∈ l.dropLast) := by
  cases l <;> simp

/-- The property does not depend on the end of the node. -/
def Stable (K : Node → Prop) : Prop :=
  ∀ n : Node, K n → ∀ m : Node, n.start = m.start → n.tag = m.tag → n.attributes = m.attributes →
    n.startTagEnd = m.startTagEnd → K m

variable {b : Bool} {K : Node → Prop}

theorem Kept.head {q q' : Node} {l : List Node} (h : Kept b K (q :: l)) (hc : q'.children = q.children)
    (hk : b = true → K q → K q') : Kept b K (q' :: l) := by
  rcases h with ⟨hb, x, hx, h⟩ | ⟨x, hx, m, h1, h2⟩
  · obtain ⟨hl, hx⟩ := mem_dropLast_cons.1 hx
    rcases hx with rfl | hx
    · exact .inl ⟨hb, q', mem_dropLast_cons.2 ⟨hl, .inl rfl⟩, hk hb h⟩
    · exact .inl ⟨hb, x, mem_dropLast_cons.2 ⟨hl, .inr hx⟩, h⟩
  · rcases List.mem_cons.1 hx with rfl | hx
    · exact .inr ⟨q', by simp, m, by rw [hc]; exact h1, h2⟩
    · exact .inr ⟨x, by simp [hx], m, h1, h2⟩

theorem Kept.cons {q : Node} {l : List Node} (h : Kept b K l) : Kept b K (q :: l) := by
  rcases h with ⟨hb, x, hx, h⟩ | ⟨x, hx, h⟩
  · refine .inl ⟨hb, x, mem_dropLast_cons.2 ⟨?_, .inr hx⟩, h⟩
    rintro rfl; cases hx
  · exact .inr ⟨x, by simp [hx], h⟩

/-- The innermost node is finished. -/
theorem Kept.fold {n n' q : Node} {l : List Node} (hS : b = true → Stable K) (h : Kept b K (n :: q :: l))
    (hc : n'.children = n.children) (hk : b = true → K n → K n') : Kept b K (q.addChild n' :: l) := by
  have sub : ∀ {m}, InForest q.children m → InForest (q.addChild n').children m := fun h =>
    inForest_sub h (fun x hx => by simp [Node.addChild, hx])
  have new : InForest (q.addChild n').children n' := .root (by simp [Node.addChild])
  rcases h with ⟨hb, x, hx, h⟩ | ⟨x, hx, m, h1, h2⟩
  · rcases (mem_dropLast_cons.1 hx).2 with rfl | hx
    · exact .inr ⟨_, List.mem_cons_self, n', new, hk hb h⟩
    · obtain ⟨hl, hx⟩ := mem_dropLast_cons.1 hx
      rcases hx with rfl | hx
      · exact .inl ⟨hb, _, mem_dropLast_cons.2 ⟨hl, .inl rfl⟩, hS hb _ h _ rfl rfl rfl rfl⟩
      · exact .inl ⟨hb, x, mem_dropLast_cons.2 ⟨hl, .inr hx⟩, h⟩
  · rcases List.mem_cons.1 hx with rfl | hx
    · exact .inr ⟨_, List.mem_cons_self, m, inForest_below new (by rw [hc]; exact h1), h2⟩
    · rcases List.mem_cons.1 hx with rfl | hx
      · exact .inr ⟨_, List.mem_cons_self, m, sub h1, h2⟩
      · exact .inr ⟨x, by simp [hx], m, h1, h2⟩

theorem Kept.pop {p p' : PState} {n : Node} (hp : p.pop = .ok p') (hS : b = true → Stable K)
    (h : Kept b K (n :: p.parents)) (hc : p.cur.children = n.children) (hk : b = true → K n → K p.cur) :
    Kept b K (p'.cur :: p'.parents) := by
  unfold PState.pop at hp
  split at hp
  · cases hp
  · rename_i q qs hq
    cases hp
    rw [hq] at h
    exact h.fold hS hc hk

theorem Kept.popUnclosed {k : Nat} {p p' : PState} (hS : b = true → Stable K) (h : Kept b K (p.cur :: p.parents))
    (hp : popUnclosed k p = .ok p') : Kept b K (p'.cur :: p'.parents) := by
  induction k generalizing p with
  | zero => cases hp; exact h
  | succ k ih =>
    unfold Html.popUnclosed at hp
    obtain ⟨e, _, hp⟩ := bind_ok hp
    obtain ⟨p1, h1, hp⟩ := bind_ok hp
    exact ih (Kept.pop h1 hS h rfl fun hb hn => hS hb _ hn _ rfl rfl rfl rfl) hp

theorem Kept.step {p p' : PState} {s s' : Sc} (hS : b = true → Stable K) (h : Kept b K (p.cur :: p.parents))
    (hcur : s.state.inStart = true → b = true → ¬ K p.cur) (hf : LocFacts s s') (hi : InfoFacts s s')
    (hp : parseStep c void p s' = .ok p') : Kept b K (p'.cur :: p'.parents) := by
  unfold parseStep at hp
  split at hp
  · cases hp; exact h.cons
  · rename_i ht
    obtain ⟨t, _, hp⟩ := bind_ok hp
    cases hp
    exact h.head rfl fun hb hk => absurd hk (hcur (hi.f1 (.inl ht)) hb)
  · rename_i ht
    have hno := hcur (hf.g3 (.inl ht)).1
    split at hp
    · cases hp; exact h
    · dsimp only at hp
      split at hp
      · split at hp
        · exact Kept.pop hp hS h rfl fun hb hk => absurd hk (hno hb)
        · cases hp
          exact h.head rfl fun hb hk => absurd hk (hno hb)
      · exact Kept.pop hp hS h rfl fun hb hk => absurd hk (hno hb)
  · rename_i ht
    have hno := hcur (hf.g3 (.inr ht)).1
    split at hp
    · cases hp; exact h
    · exact Kept.pop hp hS h rfl fun hb hk => absurd hk (hno hb)
  · cases hp; exact h
  · obtain ⟨t, _, hp⟩ := bind_ok hp
    cases hp; exact h
  · dsimp only at hp
    split at hp
    · obtain ⟨p1, h1, hp⟩ := bind_ok hp
      have h2 := h.popUnclosed hS h1
      exact Kept.pop hp hS h2 rfl fun hb hn => hS hb _ hn _ rfl rfl rfl rfl
    · cases hp; exact h
  · rename_i ht
    obtain ⟨t, _, hp⟩ := bind_ok hp
    cases hp
    exact h.head rfl fun hb hk => absurd hk (hcur (hi.f1 (.inr ht)) hb)
  · rename_i ht
    have hno := hcur (by rw [hi.f2 ht]; rfl)
    split at hp
    · obtain ⟨t, _, hp⟩ := bind_ok hp
      cases hp
      exact h.head rfl fun hb hk => absurd hk (hno hb)
    · cases hp; exact h
  · rename_i ht
    have hno := hcur (by rw [(hi.f3 ht).1]; rfl)
    obtain ⟨t, _, hp⟩ := bind_ok hp
    split at hp
    · obtain ⟨t, _, hp⟩ := bind_ok hp
      cases hp
      exact h.head rfl fun hb hk => absurd hk (hno hb)
    · cases hp; exact h
  · cases hp; exact h

theorem Kept.finishAll {len : Nat} {n : Node} {ps : List Node} (hS : b = true → Stable K) (h : Kept b K (n :: ps)) :
    Kept b K [finishAll len n ps] := by
  induction ps generalizing n with
  | nil => exact h
  | cons q qs ih =>
    rw [Html.finishAll]
    exact ih (h.fold hS rfl fun hb hn => hS hb _ hn _ rfl rfl rfl rfl)

/-- A finished node stays in the tree. -/
theorem Res.keeps {p r : PState} {s : Sc} {m : Node} (ho : Out c void p s r)
    (h0 : Has (· = m) (p.cur :: p.parents)) (len : Nat) : InForest (finishAll len r.cur r.parents).children m := by
  have h : Kept false (· = m) (p.cur :: p.parents) := .inr h0
  clear h0
  have key : Kept false (· = m) (r.cur :: r.parents) := by
    obtain ⟨f, ho⟩ := ho
    induction f generalizing p s with
    | zero => cases ho
    | succ f ih =>
      unfold parseLoop at ho
      obtain ⟨s1, h1, ho⟩ := bind_ok ho
      have hst := scan_step h1
      split at ho
      · cases ho; exact h
      · rename_i hne
        obtain ⟨p1, h2, ho⟩ := bind_ok ho
        exact ih (h.step (by simp) (by simp) (hst.locFacts hne) (hst.infoFacts hne) h2) ho
  rcases key.finishAll (len := len) (by simp) with ⟨hb, _⟩ | ⟨q, hq, m', h1, h2⟩
  · cases hb
  · simp only [List.mem_singleton] at hq
    subst hq; subst h2
    exact h1

/-- The nodes have the same start tag. -/
def SameStart (n m : Node) : Prop :=
  n.start = m.start ∧ n.tag = m.tag ∧ n.attributes = m.attributes ∧ n.startTagEnd = m.startTagEnd

theorem sameStart_stable (n : Node) : Stable (SameStart n) := by
  rintro k ⟨h1, h2, h3, h4⟩ m k1 k2 k3 k4
  exact ⟨h1.trans k1, h2.trans k2, h3.trans k3, h4.trans k4⟩

/-- A complete start tag does not change. -/
theorem Res.keepsStart {p r : PState} {s : Sc} {n : Node} (ho : Out c void p s r) (hn : n.startTagEnd ≠ none)
    (hi : PInv c void p s) (h : Kept true (SameStart n) (p.cur :: p.parents)) (len : Nat) :
    ∃ m, InForest (finishAll len r.cur r.parents).children m ∧ SameStart n m := by
  have key : Kept true (SameStart n) (r.cur :: r.parents) := by
    obtain ⟨f, ho⟩ := ho
    induction f generalizing p s with
    | zero => cases ho
    | succ f ih =>
      unfold parseLoop at ho
      obtain ⟨s1, h1, ho⟩ := bind_ok ho
      have hst := scan_step h1
      split at ho
      · cases ho; exact h
      · rename_i hne
        obtain ⟨p1, h2, ho⟩ := bind_ok ho
        refine ih (hi.next h1 hne h2) (h.step (fun _ => sameStart_stable n) ?_ (hst.locFacts hne) (hst.infoFacts hne) h2) ho
        intro h3 _ h4
        rw [h4.2.2.2] at hn
        exact hn (hi.ste h3)
  rcases key.finishAll (len := len) (fun _ => sameStart_stable n) with ⟨_, q, hq, _⟩ | ⟨q, hq, m, h1, h2⟩
  · simp at hq
  · simp only [List.mem_singleton] at hq
    subst hq
    exact ⟨m, h1, h2⟩

/-! ### The name of the start tag that is read -/

/-- The scanner knows the name of the start tag it is in. -/
def LastInv (c : Cfg) (p : PState) (s : Sc) : Prop :=
  s.state = .WithinTag ∨ s.state = .AfterAttributeName ∨ s.state = .BeforeAttributeValue →
    s.lastTag = p.cur.tag.map (keptName c)

theorem parseStep_tag {p p' : PState} {s : Sc} (h : parseStep c void p s = .ok p')
    (ht : s.tokenType = .Whitespace ∨ s.tokenType = .Unknown ∨ s.tokenType = .AttributeName ∨
      s.tokenType = .DelimiterAssign ∨ s.tokenType = .AttributeValue) : p'.cur.tag = p.cur.tag := by
  unfold parseStep at h
  rcases ht with ht | ht | ht | ht | ht <;> rw [ht] at h <;> dsimp only at h
  · cases h; rfl
  · cases h; rfl
  · obtain ⟨t, _, h⟩ := bind_ok h
    cases h; rfl
  · split at h
    · obtain ⟨t, _, h⟩ := bind_ok h
      cases h; rfl
    · cases h; rfl
  · obtain ⟨t, _, h⟩ := bind_ok h
    split at h
    · obtain ⟨t, _, h⟩ := bind_ok h
      cases h; rfl
    · cases h; rfl

theorem tagPre_last {s s1 : Sc} (h : TagPre c s s1) : s1.lastTag = s.lastTag ∧ s1.state = s.state := by
  cases h <;> exact ⟨rfl, rfl⟩

theorem StepTag.lastInv {p p' : PState} {s s' : Sc} (h : StepTag c s s') (hs : s.state = .WithinTag)
    (hl : s.lastTag = p.cur.tag.map (keptName c)) (hp : parseStep c void p s' = .ok p') : LastInv c p' s' := by
  intro hst
  cases h with
  | ws h => rw [parseStep_tag hp (.inl rfl)]; exact hl
  | attrName => rw [parseStep_tag hp (.inr (.inr (.inl rfl)))]; exact hl
  | selfClose => simp [fin] at hst
  | close =>
    simp only [fin] at hst
    rcases afterStartTag_content s with h | h | h <;> rw [h] at hst <;> simp at hst
  | pseudo => simp [fin] at hst
  | unknown s1 hpre =>
    rw [parseStep_tag hp (.inr (.inl rfl))]
    exact (tagPre_last hpre).1.trans hl

theorem StepContent.lastInv {p' : PState} {s s' : Sc} (h : StepContent c s s') (hs : s.state = .WithinContent) :
    LastInv c p' s' := by
  intro hst
  cases h <;> simp [fin, adv, hs] at hst

theorem LastInv.step {p p' : PState} {s s' : Sc} (hl : LastInv c p s) (hi : PInv c void p s) (h : Step c s s')
    (hp : parseStep c void p s' = .ok p') (hne : s'.tokenType ≠ .EOS) : LastInv c p' s' := by
  cases h with
  | eos => exact absurd rfl hne
  | content _ _ hs hx => exact hx.lastInv hs
  | scriptContent _ _ hs hl hx => exact hx.lastInv rfl
  | styleContent _ _ hs hb h0 hx => exact hx.lastInv rfl
  | tag _ _ hs hx => exact hx.lastInv hs (hl (.inl hs)) hp
  | afterNameTag _ _ hs hw h0 hx => exact hx.lastInv rfl (hl (.inr (.inl hs))) hp
  | valueTag _ _ hs hw hb h0 h1 hx => exact hx.lastInv rfl (hl (.inr (.inr hs))) hp
  | endTag _ _ hs hx =>
    intro hst
    cases hx <;> simp [fin, adv, hs] at hst
  | startTagName h hs hb h0 =>
    intro _
    simp only [parseStep, fin] at hp
    obtain ⟨t, ht, hp⟩ := bind_ok hp
    cases hp
    have ht := (sliceStr_ok ht).2.2.2.2
    simp only [adv] at ht
    rw [bytesIn_eq_take] at ht
    simp only [fin, Option.map_some, keptName]
    rw [ht]
    rfl
  | startTagNoName h hs hb hn hw h0 =>
    intro _
    rw [parseStep_tag hp (.inr (.inl rfl))]
    unfold PInv at hi
    simp only [hs] at hi
    rw [hi.tag]
    rfl
  | afterNameWs h hs => intro _; rw [parseStep_tag hp (.inl rfl)]; exact hl (.inr (.inl hs))
  | assign h hs => intro _; rw [parseStep_tag hp (.inr (.inr (.inr (.inl rfl))))]; exact hl (.inr (.inl hs))
  | valueWs h hs => intro _; rw [parseStep_tag hp (.inl rfl)]; exact hl (.inr (.inr hs))
  | valueUnquoted h hs => intro _; rw [parseStep_tag hp (.inr (.inr (.inr (.inr rfl))))]; exact hl (.inr (.inr hs))
  | valueQuoted h hs => intro _; rw [parseStep_tag hp (.inr (.inr (.inr (.inr rfl))))]; exact hl (.inr (.inr hs))
  | script q st h hs hp hl hst =>
    intro hx
    rcases hst with ⟨rfl, _⟩ | ⟨rfl, _⟩ <;> simp [fin] at hx
  | _ => intro hx; simp_all [fin, adv]

theorem PRun.lastInv {p q : PState} {s s2 : Sc} {ts : List Tok} (h : PRun c void p s ts q s2) (hi : PInv c void p s)
    (hl : LastInv c p s) : LastInv c q s2 := by
  induction h with
  | nil p s => exact hl
  | cons h hne hp hr ih => exact ih (hi.next h hne hp) (hl.step hi (scan_step h) hp hne)

/-- Behind `>` begins raw text only if the name of the element says so. -/
theorem close_state {p : PState} {s s' : Sc} (h : Step c s s') (hl : LastInv c p s) (ht : s'.tokenType = .StartTagClose) :
    s'.state = .WithinContent ∨
    (s'.state = .WithinScriptContent ∧ p.cur.tag.map (keptName c) = some b!"script") ∨
    (s'.state = .WithinStyleContent ∧ p.cur.tag.map (keptName c) = some b!"style") := by
  have key : ∀ a : Sc, StepTag c a s' → a.lastTag = p.cur.tag.map (keptName c) →
    s'.state = .WithinContent ∨
    (s'.state = .WithinScriptContent ∧ p.cur.tag.map (keptName c) = some b!"script") ∨
    (s'.state = .WithinStyleContent ∧ p.cur.tag.map (keptName c) = some b!"style") := by
    intro a ha hla
    cases ha with
    | close s1 hpre h =>
      simp only [fin]
      unfold afterStartTag
      rw [hla]
      split
      · rename_i h1
        split
        · exact .inl rfl
        · exact .inr (.inl ⟨rfl, h1⟩)
      · split
        · rename_i h1
          exact .inr (.inr ⟨rfl, h1⟩)
        · exact .inl rfl
    | pseudo => exact .inl rfl
    | _ => cases ht
  cases h with
  | tag _ _ hs hx => exact key _ hx (hl (.inl hs))
  | afterNameTag _ _ hs hw h0 hx => exact key _ hx (hl (.inr (.inl hs)))
  | valueTag _ _ hs hw hb h0 h1 hx => exact key _ hx (hl (.inr (.inr hs)))
  | startTagImmediate => exact .inl rfl
  | content _ _ hs hx => cases hx <;> cases ht
  | scriptContent _ _ hs hl hx => cases hx <;> cases ht
  | styleContent _ _ hs hb h0 hx => cases hx <;> cases ht
  | endTag _ _ hs hx => cases hx <;> cases ht
  | _ => cases ht

/-! ### Names in front of `>` -/

theorem runLen_close {q : Nat → Bool} {t z y : Str} (hq : q 62 = false) (hw : Whole t)
    (h : t.length ≤ runLen q (t ++ z)) : runLen q (t ++ 62 :: y) = t.length := by
  induction t with
  | nil => simp [runLen, isCont, codePoint, hq]
  | cons b t ih =>
    simp only [List.cons_append, runLen, List.length_cons] at h ⊢
    by_cases hb : isCont b = true
    · rw [if_pos hb] at h ⊢
      rw [ih hw.2 (by omega)]; omega
    · rw [if_neg hb] at h ⊢
      have e := codePoint_append (t := t) (y := z) (y' := 62 :: y) (hw.1.resolve_left hb)
      rw [List.cons_append, List.cons_append] at e
      rw [← e]
      split at h
      · rename_i hp
        rw [if_pos hp, ih hw.2 (by omega)]; omega
      · omega

theorem nameLen_close {u : Uni} {b : Nat} {t z y : Str} (hw : Whole (b :: t)) (hb : isCont b = false)
    (h : elementNameLen u (b :: t ++ z) = (b :: t).length) :
    elementNameLen u (b :: t ++ 62 :: y) = (b :: t).length := by
  unfold elementNameLen at h ⊢
  simp only [List.cons_append, firstRunLen, List.length_cons] at h ⊢
  have e := codePoint_append (t := t) (y := z) (y' := 62 :: y) (hw.1.resolve_left (by simp [hb]))
  rw [List.cons_append, List.cons_append] at e
  rw [← e]
  split at h
  · rename_i hp
    rw [if_pos hp, runLen_close (nameRest_close _) hw.2 (z := z) (by omega)]; omega
  · omega

/-- The run of characters ends in front of a whole character. -/
theorem runLen_whole {q : Nat → Bool} (r : Str) : ∀ b, r[runLen q r]? = some b → isCont b = false := by
  induction r with
  | nil => simp
  | cons a t ih =>
    intro b hb
    simp only [runLen] at hb
    split at hb
    · rw [Nat.add_comm, List.getElem?_cons_succ] at hb; exact ih b hb
    · rename_i ha
      split at hb
      · rw [Nat.add_comm, List.getElem?_cons_succ] at hb; exact ih b hb
      · simp only [List.getElem?_cons_zero, Option.some.injEq] at hb
        subst hb; simpa using ha

theorem nameLen_stop {u : Uni} {r : Str} (h0 : 0 < elementNameLen u r) :
    ∀ b, r[elementNameLen u r]? = some b → isCont b = false := by
  intro b hb
  cases r with
  | nil => simp at hb
  | cons a t =>
    unfold elementNameLen at hb h0
    simp only [firstRunLen] at hb h0
    split at hb
    · rw [Nat.add_comm, List.getElem?_cons_succ] at hb; exact runLen_whole t b hb
    · rename_i h; rw [if_neg h] at h0; omega

/-! ### The inserted end tag -/

theorem PRun.run {p q : PState} {s s2 : Sc} {ts : List Tok} (h : PRun c void p s ts q s2) : Run c s ts s2 := by
  induction h with
  | nil p s => exact .nil s
  | cons h hne hp hr ih => exact .cons h hne ih

theorem Run.prefix {s s2 s3 : Sc} {l ts : List Tok} (h : Run c s l s2) (h2 : Run c s ts s3) (h3 : c.src.length ≤ s3.pos) :
    ∃ post, ts = l ++ post ∧ Run c s2 post s3 := by
  induction h generalizing ts with
  | nil s => exact ⟨ts, rfl, h2⟩
  | @cons s s1 s2 l hsc hne hr ih =>
    cases h2 with
    | nil =>
      rw [scan_eos h3] at hsc
      cases hsc
      exact absurd rfl hne
    | cons hsc2 _ hr2 =>
      rw [hsc] at hsc2
      cases hsc2
      obtain ⟨post, e, h⟩ := ih hr2
      exact ⟨post, by rw [e]; rfl, h⟩

theorem Doc.only (h : Doc u cs void src roots ts) {n m : Node} {e : Nat} (hn : InForest roots n) (hm : InForest roots m)
    (h1 : n.startTagEnd = some e) (h2 : m.startTagEnd = some e) : n = m := by
  have locate : ∀ {n}, InForest roots n → n.startTagEnd = some e → ∃ ps, findNodeBefore roots e = some (n, ps) := by
    intro n hn hs
    obtain ⟨k1, k2, _⟩ := (C14_offsets_point_at_brackets _ _ _ _ _ n h.parse hn).2.1 e hs
    refine h.locate hn k1 k2 fun m hm => ?_
    have := (h.inner_gt hn hm).1
    rwa [hs] at this
  obtain ⟨ps, k1⟩ := locate hn h1
  obtain ⟨qs, k2⟩ := locate hm h2
  rw [k1] at k2
  cases k2
  rfl

/-- The parser reads the new text up to behind the end tag, whatever comes then. -/
theorem accept_walk {u : Uni} {cs : Bool} {a b t : Str} {n : Node} {roots : List Node} {r' : Option PState} {cps : List Nat}
    (hu : Utf8 cps (a ++ b)) (h : parse u cs void (a ++ b) = .ok roots) (hn : InForest roots n)
    (he : n.startTagEnd = some a.length) (ht : n.tag = some t) (hv : t ∉ void) (ho : Unclosed a.length n)
    (hraw0 : ¬ OddRaw u cs t) {ts : List Tok}
    (hts : tokens (parserCfg u cs (a ++ b)) (.new 0 .WithinContent) = .ok ts)
    (hout' : Res (parserCfg u cs (a ++ (b!"</" ++ t ++ b!">") ++ b)) void
      (.init (a ++ (b!"</" ++ t ++ b!">") ++ b).length) (.new 0 .WithinContent) r') :
    (∃ s4 p4, InText s4 (a.length + (t.length + 3)) ∧
      Res (parserCfg u cs (a ++ (b!"</" ++ t ++ b!">") ++ b)) void p4 s4 r' ∧
      Has (· = closedAt n a.length t) (p4.cur :: p4.parents)) ∧
    (∀ ts', tokens (parserCfg u cs (a ++ (b!"</" ++ t ++ b!">") ++ b)) (.new 0 .WithinContent) = .ok ts' →
      NoCut ts a.length → NoCut ts' a.length) ∧
    ((foldName u cs t ≠ b!"script" ∧ foldName u cs t ≠ b!"style") → ∃ q s2 r, InText s2 a.length ∧
      Out (parserCfg u cs (a ++ b)) void q s2 r) := by
  have hraw : foldName u cs t = b!"script" ∨ foldName u cs t = b!"style" → foldName u cs t = t := fun h1 =>
    Classical.byContradiction fun h2 => hraw0 ⟨h1, h2⟩
  have hD : Doc u cs void (a ++ b) roots ts := ⟨h, hts⟩
  -- the token
  obtain ⟨x, ⟨pre, t0, mid, post, e1, _, _, _, hx⟩, hlt, hstop, hself, _⟩ := (parse_tags h hts hn).full _ he
  have hx : x.type = .StartTagClose := by
    rcases hx with hx | hx
    · exact hx
    · obtain ⟨k1, k2⟩ := hself hx
      rcases ho with k | ⟨_, k, _⟩
      · rw [k1] at k; cases k
      · rw [k2] at k; cases k
  obtain ⟨s2, hrun⟩ : ∃ s2, Run (parserCfg u cs (a ++ b)) (.new 0 .WithinContent) ((pre ++ t0 :: mid) ++ [x]) s2 := by
    obtain ⟨s3, hr, _⟩ := tokens_run hts
    rw [e1, show pre ++ t0 :: (mid ++ x :: post) = ((pre ++ t0 :: mid) ++ [x]) ++ post by simp] at hr
    obtain ⟨s2, hr, _⟩ := hr.split
    exact ⟨s2, hr⟩
  -- the parser up to the token
  have h0 := h
  unfold parse at h
  obtain ⟨r, hr, h⟩ := bind_ok h
  cases h
  have hout : Out (parserCfg u cs (a ++ b)) void (.init (a ++ b).length) (.new 0 .WithinContent) r := ⟨_, hr⟩
  obtain ⟨q, hP, hout⟩ := hrun.parser hout
  obtain ⟨p1, s1, hP1, hsc, htok, hne, hstep⟩ := hP.split
  have hi := hP1.inv PInv.init
  have hst := scan_step hsc
  have hx2 : s2.tokenType = .StartTagClose := by rw [← hx, ← htok]; rfl
  have hp2 : s2.pos = a.length := by rw [← hstop, ← htok]; rfl
  have hl2 : s2.tokenOffset < s2.pos := by
    have : x.offset < x.stop := hlt
    rw [← htok] at this
    exact this
  have hin := (hst.locFacts hne).g3 (.inl hx2)
  obtain ⟨hkids, hpar⟩ := hi.inStart hin.1
  have hlast : LastInv (parserCfg u cs (a ++ b)) p1 s1 := hP1.lastInv PInv.init (by intro h; simp [Sc.new] at h)
  -- the element
  have hq : Kept true (SameStart { p1.cur with startTagEnd := some a.length }) (q.cur :: q.parents) ∧
      ((∀ t, p1.cur.tag = some t → t ∉ void) →
        q.cur = { p1.cur with stop := a.length, startTagEnd := some a.length } ∧ q.parents = p1.parents) := by
    obtain ⟨g, gs, hg⟩ := List.exists_cons_of_ne_nil hpar
    simp only [parseStep, hx2] at hstep
    rw [if_neg (by rw [hg]; simp), if_pos (by simp only [Sc.tokenLength]; omega)] at hstep
    simp only [Sc.tokenEnd, hp2] at hstep
    by_cases hvoid : p1.cur.tag.any (fun t => void.contains t) = true
    · rw [if_pos hvoid] at hstep
      simp only [PState.pop, hg] at hstep
      cases hstep
      refine ⟨.inr ⟨_, List.mem_cons_self, _, .root (List.mem_append_right _ List.mem_cons_self), rfl, rfl, rfl, rfl⟩, ?_⟩
      intro hno
      cases htag : p1.cur.tag with
      | none => rw [htag] at hvoid; cases hvoid
      | some t' =>
        rw [htag] at hvoid
        exact absurd (by simpa using hvoid) (hno t' htag)
    · rw [if_neg hvoid] at hstep
      cases hstep
      refine ⟨.inl ⟨rfl, _, mem_dropLast_cons.2 ⟨hpar, .inl rfl⟩, rfl, rfl, rfl, rfl⟩, fun _ => ⟨rfl, rfl⟩⟩
  obtain ⟨m, hm, hs⟩ := hout.keepsStart (by simp) (hi.next hsc hne hstep) hq.1 (a ++ b).length
  have := hD.only hn hm he hs.2.2.2.symm
  subst this
  obtain ⟨k1, k2, k3, k4⟩ := hs
  simp only at k1 k2 k3 k4
  obtain ⟨hqc, hqp⟩ := hq.2 (fun t' ht' => by rw [k2, ht] at ht'; cases ht'; exact hv)
  -- the other text
  have hgt := hst.gt (by rw [hx2]; rfl) (by rw [hst.offset_eq] at hl2; exact hl2)
  rw [hp2] at hgt
  have hal : 0 < a.length := by omega
  have hgt' : a[a.length - 1]? = some 62 := by
    have : (a ++ b)[a.length - 1]? = some 62 := hgt
    rwa [List.getElem?_append_left (by omega)] at this
  obtain ⟨y, hy⟩ : ∃ y, a = y ++ [62] := by
    refine ⟨a.take (a.length - 1), ?_⟩
    have h1 := List.take_append_drop (a.length - 1) a
    obtain ⟨hlt, hv⟩ := List.getElem?_eq_some_iff.1 hgt'
    rw [List.drop_eq_getElem_cons hlt, hv, List.drop_of_length_le (by omega)] at h1
    exact h1.symm
  have hyl : a.length = y.length + 1 := by rw [hy]; simp
  have hw : Whole y := by
    have := whole_of_utf8 (a := 0) hu hgt (by decide)
    rw [hyl, Nat.add_sub_cancel] at this
    have e : bytesIn (a ++ b) 0 y.length = y := by simp [bytesIn, hy]
    rwa [e] at this
  have G : Agree y (parserCfg u cs (a ++ b)) (parserCfg u cs (a ++ (b!"</" ++ t ++ b!">") ++ b)) :=
    ⟨⟨b, by simp [parserCfg, hy]⟩, ⟨b!"</" ++ t ++ b!">" ++ b, by simp [parserCfg, hy]⟩, rfl, rfl, rfl, hw⟩
  have hinit : PShift [] 0 (Sc.new 0 .WithinContent).state (PState.init (a ++ b).length)
      (PState.init (a ++ (b!"</" ++ t ++ b!">") ++ b).length) := .outer rfl rfl ⟨_, rfl, rfl⟩
  obtain ⟨q', hrel, hP'⟩ := hP.keeps G (Nat.zero_le _) rfl (by rw [hstop, hyl]) (by rw [hx]; rfl) hlt hinit
  have hout' := hP'.res hout'
  refine ⟨?_, fun ts' hts' hcut y hy hlt' => ?_, fun hno => ?_⟩
  rotate_left
  · obtain ⟨s3, hr3, hlen3⟩ := tokens_run hts'
    obtain ⟨post', ep, hr4⟩ := hP'.run.prefix hr3 hlen3
    rw [ep] at hy
    rcases List.mem_append.1 hy with hy | hy
    · refine hcut y ?_ hlt'
      rw [e1]
      simp only [List.mem_append, List.mem_cons] at hy ⊢
      rcases hy with (hy | hy | hy) | (hy | hy)
      · exact .inl hy
      · exact .inr (.inl hy)
      · exact .inr (.inr (.inl hy))
      · exact .inr (.inr (.inr (.inl hy)))
      · cases hy
    · have := hr4.ge hy
      omega
  · rcases close_state hst hlast hx2 with k | ⟨_, kn⟩ | ⟨_, kn⟩
    · exact ⟨q, s2, r, ⟨k, hp2⟩, hout⟩
    · rw [k2, ht] at kn
      exact absurd (Option.some.inj kn) hno.1
    · rw [k2, ht] at kn
      exact absurd (Option.some.inj kn) hno.2
  have hsr := hrel.out hin.2
  have hqpar : q.parents ≠ [] := by rw [hqp]; exact hpar
  obtain ⟨e2, e3⟩ := hsr.uncons hqpar
  rw [shift_zero, hqc] at e2
  have hq'par := e3.ne.2
  -- the name
  have hdrop : (parserCfg u cs (a ++ (b!"</" ++ t ++ b!">") ++ b)).src.drop a.length = b!"</" ++ t ++ [] ++ b!">" ++ b := by
    simp [parserCfg]
  have hname : t ≠ [] ∧ elementNameLen u (t ++ 62 :: b) = t.length := by
    have hN := (parse_done h0 hn).name
    rw [he, ht] at hN
    obtain ⟨_, _, _, hel, _⟩ := hN.spec
    obtain ⟨w, _, hat, hle, hbd, hlen⟩ := hN.len t rfl
    simp only [Option.getD_some, parserCfg] at hle hbd hlen hat
    have hne0 : t ≠ [] := hel.1
    refine ⟨hne0, ?_⟩
    have hpos : 0 < t.length := List.length_pos_iff.2 hne0
    generalize hj : n.start + 1 + w.length = j at hle hbd hlen
    have hd : (a ++ b).drop j = y.drop j ++ 62 :: b := by
      rw [hy, List.append_assoc, List.drop_append_of_le_length (by omega)]; rfl
    have hle2 : j + t.length ≤ y.length := by
      have := firstRunLen_le_close (nameFirst_close u) (nameRest_close u) (y.drop j) b
      rw [← hd] at this
      change elementNameLen u _ ≤ _ at this
      rw [hlen, List.length_drop] at this
      omega
    have hz : (a ++ b).drop j = t ++ (a ++ b).drop (j + t.length) := by
      obtain ⟨z, hz⟩ := hat
      have h1 : (a ++ b).drop j = t ++ z := by
        have := congrArg (List.drop w.length) hz
        rw [List.drop_drop, hj, List.append_assoc, List.drop_left] at this
        exact this
      rw [← List.drop_drop, h1, List.drop_left]
    obtain ⟨v, hv⟩ : ∃ v, (a ++ b)[j + t.length]? = some v :=
      ⟨_, List.getElem?_eq_getElem (by simp; omega)⟩
    have hvc : isCont v = false := by
      refine nameLen_stop (u := u) (r := (a ++ b).drop j) (by omega) v ?_
      rw [hlen, List.getElem?_drop, hv]
    have hwt : Whole t := by
      have := whole_of_utf8 (a := j) hu hv hvc
      rwa [bytesIn_eq_take, hz, List.take_left] at this
    obtain ⟨d, t', rfl⟩ := List.exists_cons_of_ne_nil hne0
    refine nameLen_close (z := (a ++ b).drop (j + (d :: t').length)) hwt ?_ (by rw [← hz]; exact hlen)
    have hd0 : (a ++ b)[j]? = some d := by
      have : ((a ++ b).drop j)[0]? = some d := by rw [hz]; rfl
      simpa using this
    unfold isBoundary at hbd
    rw [hd0] at hbd
    split at hbd
    · rename_i h; simp at h; omega
    · simpa using hbd
  obtain ⟨s3, hs3, hout3⟩ : ∃ s3, InText s3 a.length ∧
      Res (parserCfg u cs (a ++ (b!"</" ++ t ++ b!">") ++ b)) void q' s3 r' := by
    rcases close_state hst hlast hx2 with k | ⟨k, kn⟩ | ⟨k, kn⟩
    · exact ⟨s2, ⟨k, hp2⟩, hout'⟩
    · rw [k2, ht] at kn
      have kn : foldName u cs t = b!"script" := Option.some.inj kn
      have kt := hraw (.inl kn)
      rw [kn] at kt
      obtain ⟨s3, k5, k6⟩ := hout'.script (i := a.length) (body := []) (x := b!">" ++ b) k hp2 (by rw [hdrop, ← kt]; simp)
        (by rintro ⟨_, _, h⟩; simp at h) (by rintro ⟨_, _, h⟩; simp at h)
      exact ⟨s3, k5, k6⟩
    · rw [k2, ht] at kn
      have kn : foldName u cs t = b!"style" := Option.some.inj kn
      have kt := hraw (.inr kn)
      rw [kn] at kt
      obtain ⟨s3, k5, k6⟩ := hout'.style (i := a.length) (body := []) (x := b!">" ++ b) k hp2 (by rw [hdrop, ← kt]; simp)
        (by rintro ⟨_, _, h⟩; simp at h)
      exact ⟨s3, k5, k6⟩
  obtain ⟨s4, p4, hs4, hout4, hc4, _⟩ := hout3.endTagOf hs3 hdrop hname.1 hname.2 (by intro b hb; cases hb)
    (by rw [e2]; simp only; rw [k2, ht]) hq'par
  refine ⟨s4, p4, by simpa using hs4, hout4, ?_⟩
  refine ⟨_, List.mem_cons_self, _, ?_, rfl⟩
  rw [hc4]
  refine .root (List.mem_append_right _ ?_)
  rw [List.mem_singleton, e2, closedAt]
  simp only [hkids, k1, k2, k3, k4]
  simp [he]

theorem accept_end_tag {u : Uni} {cs : Bool} {a b t : Str} {n : Node} {roots roots' : List Node} {cps : List Nat}
    (hu : Utf8 cps (a ++ b)) (h : parse u cs void (a ++ b) = .ok roots) (hn : InForest roots n)
    (he : n.startTagEnd = some a.length) (ht : n.tag = some t) (hv : t ∉ void) (ho : Unclosed a.length n)
    (hraw0 : ¬ OddRaw u cs t) (h' : parse u cs void (a ++ (b!"</" ++ t ++ b!">") ++ b) = .ok roots') {ts ts' : List Tok}
    (hts : tokens (parserCfg u cs (a ++ b)) (.new 0 .WithinContent) = .ok ts)
    (hts' : tokens (parserCfg u cs (a ++ (b!"</" ++ t ++ b!">") ++ b)) (.new 0 .WithinContent) = .ok ts') :
    InForest roots' (closedAt n a.length t) ∧ (NoCut ts a.length → NoCut ts' a.length) := by
  unfold parse at h'
  obtain ⟨r', hr', h'⟩ := bind_ok h'
  cases h'
  obtain ⟨⟨s4, p4, _, hout4, hhas⟩, hcut, _⟩ := accept_walk (r' := some r') hu h hn he ht hv ho hraw0 hts ⟨_, hr'⟩
  exact ⟨Res.keeps hout4 hhas _, hcut _ hts'⟩

end Html
