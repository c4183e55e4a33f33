import Verif.Proof.StartTag
import Verif.Props.Parser

/-! # The tokens between which the tags of a parsed element lie -/

namespace Html
open Spec Props

variable {c : Cfg} {void : List Str}

/-- The scanner is inside an end tag. -/
def SS.inEnd : SS → Bool
  | .AfterOpeningEndTag | .WithinEndTag => true
  | _ => false

/-- How end tags are entered, read and left. -/
structure EndFacts (s s' : Sc) : Prop where
  enter : s'.tokenType = .EndTagOpen → s'.state = .AfterOpeningEndTag ∧ s.state.inStart = false
  close : s'.tokenType = .EndTagClose → s.state.inEnd = true ∧ s'.state.inEnd = false
  stay : s'.state.inEnd = true → s'.tokenType ≠ .EndTagOpen →
    s.state.inEnd = true ∧ isBracket s'.tokenType = false

theorem StepContent.endFacts {s s' a : Sc} (h : StepContent c a s') (ha : a.state = .WithinContent)
    (hs : s.state.inStart = false) : EndFacts s s' := by
  cases h <;> constructor <;> simp [fin, adv, ha, SS.inEnd, hs]

theorem inEnd_afterStartTag (s : Sc) : (afterStartTag s).inEnd = false := by
  rcases afterStartTag_content s with h | h | h <;> rw [h] <;> rfl

theorem StepTag.endFacts {s s' a : Sc} (h : StepTag c a s') (ha : a.state = .WithinTag) :
    EndFacts s s' := by
  cases h with
  | close s1 hp1 h =>
    have := inEnd_afterStartTag a
    constructor <;> simp [fin, adv, this]
  | unknown s1 hp1 =>
    have es : s1.state = .WithinTag := by cases hp1 <;> exact ha
    constructor <;> simp [fin, adv, es, SS.inEnd]
  | _ => constructor <;> simp [fin, adv, ha, SS.inEnd]

theorem Step.endFacts {s s' : Sc} (h : Step c s s') (hne : s'.tokenType ≠ .EOS) : EndFacts s s' := by
  cases h with
  | eos h => exact absurd rfl hne
  | content _ h hs hx => exact hx.endFacts hs (by rw [hs]; rfl)
  | tag _ h hs hx => exact hx.endFacts hs
  | afterNameTag _ h hs hw h0 hx => exact hx.endFacts rfl
  | valueTag _ h hs hw hb h0 h1 hx => exact hx.endFacts rfl
  | script q st h hs hp hl hst =>
    rcases hst with ⟨e, _⟩ | ⟨e, _⟩ <;> constructor <;> simp [fin, e, SS.inEnd]
  | scriptContent _ h hs hl hx => exact hx.endFacts rfl (by rw [hs]; rfl)
  | styleContent _ h hs hb h0 hx => exact hx.endFacts rfl (by rw [hs]; rfl)
  | endTag _ h hs hx => cases hx <;> constructor <;> simp [fin, adv, hs, SS.inEnd, isBracket]
  | _ => rename_i hs _; constructor <;> simp_all [fin, adv, SS.inEnd, isBracket]

/-- `h` has a start tag that begins at `a`, and `x` is the token that ends it. -/
def StartSeg (h : List Tok) (a : Nat) (x : Tok) : Prop :=
  ∃ pre t mid post, h = pre ++ t :: (mid ++ x :: post) ∧ t.type = .StartTagOpen ∧ t.offset = a ∧
    (∀ y ∈ mid, isBracket y.type = false) ∧ (x.type = .StartTagClose ∨ x.type = .StartTagSelfClose)

/-- `h` has an end tag that begins at `a`, and `x` is the token that ends it. -/
def EndSeg (h : List Tok) (a : Nat) (x : Tok) : Prop :=
  ∃ pre t mid post, h = pre ++ t :: (mid ++ x :: post) ∧ t.type = .EndTagOpen ∧ t.offset = a ∧
    (∀ y ∈ mid, isBracket y.type = false) ∧ x.type = .EndTagClose

/-- `h` ends within a tag that `k` opens at `a`. -/
def OpenSeg (k : TT) (h : List Tok) (a : Nat) : Prop :=
  ∃ pre t mid, h = pre ++ t :: mid ∧ t.type = k ∧ t.offset = a ∧ (∀ y ∈ mid, isBracket y.type = false)

/-- The tags of a finished element. -/
structure Fin (void : List Str) (h : List Tok) (n : Node) : Prop where
  cut : n.startTagEnd = none → ∃ x, StartSeg h n.start x ∧ x.type = .StartTagClose ∧
    ¬ x.offset < x.stop ∧ x.stop = n.stop
  full : ∀ e, n.startTagEnd = some e → ∃ x, StartSeg h n.start x ∧ x.offset < x.stop ∧ x.stop = e ∧
    (x.type = .StartTagSelfClose → n.closed = true ∧ n.endTagStart = none) ∧
    (x.type = .StartTagClose → n.closed = true → n.endTagStart = none → ∃ t ∈ void, n.tag = some t)
  ends : ∀ e, n.endTagStart = some e → ∃ x, EndSeg h e x ∧ x.stop = n.stop

theorem StartSeg.mono {h : List Tok} {a : Nat} {x : Tok} (hs : StartSeg h a x) (l : List Tok) :
    StartSeg (h ++ l) a x := by
  obtain ⟨pre, t, mid, post, h1, h2⟩ := hs
  exact ⟨pre, t, mid, post ++ l, by simp [h1], h2⟩

theorem EndSeg.mono {h : List Tok} {a : Nat} {x : Tok} (hs : EndSeg h a x) (l : List Tok) :
    EndSeg (h ++ l) a x := by
  obtain ⟨pre, t, mid, post, h1, h2⟩ := hs
  exact ⟨pre, t, mid, post ++ l, by simp [h1], h2⟩

theorem OpenSeg.close {h : List Tok} {a : Nat} {x : Tok} (hs : OpenSeg .StartTagOpen h a)
    (hx : x.type = .StartTagClose ∨ x.type = .StartTagSelfClose) : StartSeg (h ++ [x]) a x := by
  obtain ⟨pre, t, mid, h1, h2, h3, h4⟩ := hs
  exact ⟨pre, t, mid, [], by simp [h1], h2, h3, h4, hx⟩

theorem OpenSeg.closeEnd {h : List Tok} {a : Nat} {x : Tok} (hs : OpenSeg .EndTagOpen h a)
    (hx : x.type = .EndTagClose) : EndSeg (h ++ [x]) a x := by
  obtain ⟨pre, t, mid, h1, h2, h3, h4⟩ := hs
  exact ⟨pre, t, mid, [], by simp [h1], h2, h3, h4, hx⟩

theorem OpenSeg.snoc {k : TT} {h : List Tok} {a : Nat} {x : Tok} (hs : OpenSeg k h a)
    (hx : isBracket x.type = false) : OpenSeg k (h ++ [x]) a := by
  obtain ⟨pre, t, mid, h1, h2, h3, h4⟩ := hs
  refine ⟨pre, t, mid ++ [x], by simp [h1], h2, h3, fun y hy => ?_⟩
  rcases List.mem_append.1 hy with hy | hy
  · exact h4 y hy
  · rw [List.mem_singleton] at hy; subst hy; exact hx

theorem Fin.mono {h : List Tok} {n : Node} (hf : Fin void h n) (l : List Tok) : Fin void (h ++ l) n := by
  refine ⟨fun hn => ?_, fun e he => ?_, fun e he => ?_⟩
  · obtain ⟨x, h1, h2⟩ := hf.cut hn
    exact ⟨x, h1.mono l, h2⟩
  · obtain ⟨x, h1, h2⟩ := hf.full e he
    exact ⟨x, h1.mono l, h2⟩
  · obtain ⟨x, h1, h2⟩ := hf.ends e he
    exact ⟨x, h1.mono l, h2⟩

theorem Deep.imp {P Q : Node → Prop} (hpq : ∀ n, P n → Q n) {n : Node} (h : Deep P n) : Deep Q n := by
  induction h with
  | mk h hc ih => exact ⟨hpq _ h, ih⟩

/-- The start tag of an element that is still open. -/
def Opened (h : List Tok) (n : Node) : Prop :=
  ∀ e, n.startTagEnd = some e → ∃ x, StartSeg h n.start x ∧ x.offset < x.stop ∧ x.stop = e ∧
    x.type = .StartTagClose

/-- An entry of the stack. -/
structure Entry (void : List Str) (h : List Tok) (n : Node) : Prop where
  opened : Opened h n
  ets : n.endTagStart = none
  kids : ∀ d ∈ n.children, Deep (Fin void h) d

theorem Entry.mono {h : List Tok} {n : Node} (he : Entry void h n) (l : List Tok) : Entry void (h ++ l) n := by
  refine ⟨fun e h1 => ?_, he.ets, fun d hd => (he.kids d hd).imp fun _ hf => hf.mono l⟩
  obtain ⟨x, h2, h3⟩ := he.opened e h1
  exact ⟨x, h2.mono l, h3⟩

theorem Entry.modify {h : List Tok} {n m : Node} (he : Entry void h n) (h1 : m.start = n.start)
    (h2 : m.startTagEnd = n.startTagEnd) (h3 : m.children = n.children) (h4 : m.endTagStart = n.endTagStart) :
    Entry void h m := by
  refine ⟨?_, by rw [h4, he.ets], by rw [h3]; exact he.kids⟩
  intro e hx
  rw [h2] at hx
  rw [h1]
  exact he.opened e hx

theorem Entry.addChild {h : List Tok} {q n : Node} (hq : Entry void h q) (hf : Fin void h n)
    (hk : ∀ d ∈ n.children, Deep (Fin void h) d) : Entry void h (q.addChild n) := by
  refine ⟨hq.opened, hq.ets, ?_⟩
  intro d hd
  rcases List.mem_append.1 hd with hd | hd
  · exact hq.kids d hd
  · rw [List.mem_singleton] at hd; subst hd; exact ⟨hf, hk⟩

def AllEntry (void : List Str) (h : List Tok) (l : List Node) : Prop := ∀ q ∈ l, Entry void h q

theorem AllEntry.pop {h : List Tok} {p p' : PState} (hp : p.pop = .ok p') (hf : Fin void h p.cur)
    (hk : ∀ d ∈ p.cur.children, Deep (Fin void h) d) (hs : AllEntry void h p.parents) :
    AllEntry void h (p'.cur :: p'.parents) := by
  unfold PState.pop at hp
  split at hp
  · cases hp
  · rename_i q qs hq
    cases hp
    rw [hq] at hs
    intro x hx
    rcases List.mem_cons.1 hx with rfl | hx
    · exact (hs q (by simp)).addChild hf hk
    · exact hs x (by simp [hx])

/-- All entries but the last have a complete start tag. -/
def Complete : List Node → Prop
  | q :: q2 :: qs => q.startTagEnd ≠ none ∧ Complete (q2 :: qs)
  | _ => True

theorem StackOK.complete {Q : Node → Prop} {hi : Nat} : ∀ {l : List Node}, StackOK c void Q hi l → Complete l
  | [], _ => trivial
  | [_], _ => trivial
  | q :: q2 :: qs, h => by
    refine ⟨?_, StackOK.complete h.2⟩
    obtain ⟨e, he, _⟩ := h.1.ste
    rw [he]; simp

theorem Complete.addChild {q d : Node} {qs : List Node} (h : Complete (q :: qs)) :
    Complete (q.addChild d :: qs) := by
  cases qs with
  | nil => trivial
  | cons r rs => exact h

/-- An element that is left open. -/
theorem Entry.leave {h : List Tok} {n : Node} (he : Entry void h n) (hn : n.startTagEnd ≠ none) (e : Nat) :
    Fin void h { n with stop := e, closed := false } := by
  refine ⟨fun hx => absurd hx hn, fun e hx => ?_, fun e hx => ?_⟩
  · obtain ⟨x, h1, h2, h3, h4⟩ := he.opened e hx
    exact ⟨x, h1, h2, h3, by simp [h4], by simp⟩
  · simp [he.ets] at hx

theorem AllEntry.popUnclosed {h : List Tok} {k : Nat} {p p' : PState} (hs : AllEntry void h (p.cur :: p.parents))
    (hc : Complete (p.cur :: p.parents)) (hp : popUnclosed k p = .ok p') :
    AllEntry void h (p'.cur :: p'.parents) ∧ Complete (p'.cur :: p'.parents) ∧
      p'.endTagStart = p.endTagStart := by
  induction k generalizing p with
  | zero => cases hp; exact ⟨hs, hc, rfl⟩
  | succ k ih =>
    unfold Html.popUnclosed at hp
    obtain ⟨e, _, hp⟩ := bind_ok hp
    obtain ⟨p1, h1, hp⟩ := bind_ok hp
    have hpar : ∃ q qs, p.parents = q :: qs := by
      unfold PState.pop at h1
      split at h1
      · cases h1
      · exact ⟨_, _, by assumption⟩
    obtain ⟨q, qs, hq⟩ := hpar
    rw [hq] at hc
    have hcur := hs p.cur (by simp)
    have h2 : AllEntry void h (p1.cur :: p1.parents) :=
      AllEntry.pop h1 (hcur.leave hc.1 e) hcur.kids (fun x hx => hs x (by simp [hx]))
    have e1 : p1.cur :: p1.parents = q.addChild { p.cur with stop := e, closed := false } :: qs ∧
        p1.endTagStart = p.endTagStart := by
      unfold PState.pop at h1
      simp only [hq] at h1
      cases h1; exact ⟨rfl, rfl⟩
    obtain ⟨i1, i2, i3⟩ := ih h2 (by rw [e1.1]; exact hc.2.addChild) hp
    exact ⟨i1, i2, by rw [i3, e1.2]⟩

/-- The invariant: `h` are the tokens read so far. -/
structure SegInv (void : List Str) (h : List Tok) (p : PState) (s : Sc) : Prop where
  stack : AllEntry void h (p.cur :: p.parents)
  start : s.state.inStart = true → p.cur.startTagEnd = none ∧ OpenSeg .StartTagOpen h p.cur.start
  ends : s.state.inEnd = true → ∃ e, p.endTagStart = some e ∧ OpenSeg .EndTagOpen h e

theorem PInv.complete {p : PState} {s : Sc} (h : PInv c void p s) (hs : s.state.inEnd = true) :
    Complete (p.cur :: p.parents) := by
  unfold PInv at h
  revert h hs
  cases s.state <;> intro h hs <;> first
    | (cases hs; done)
    | (obtain ⟨_, _, _, _, _, _, _, _, _, h⟩ := h.ex; exact h.complete)
    | (obtain ⟨_, _, _, _, _, _, _, _, h⟩ := h.ex; exact h.complete)

theorem Complete.tail {q : Node} {qs : List Node} (h : Complete (q :: qs)) : Complete qs := by
  cases qs with
  | nil => trivial
  | cons r rs => exact h.2

theorem PInv.parents {p : PState} {s : Sc} (h : PInv c void p s) : Complete p.parents := by
  unfold PInv at h
  revert h
  cases s.state <;> intro h <;> first
    | exact h.stack.complete
    | exact h.tag.stack.complete
    | exact (StackOK.complete h).tail
    | (obtain ⟨_, _, _, _, _, _, _, _, _, h⟩ := h.ex; exact h.complete.tail)
    | (obtain ⟨_, _, _, _, _, _, _, _, h⟩ := h.ex; exact h.complete.tail)

theorem PInv.curFull {p : PState} {s : Sc} (h : PInv c void p s) (hs : s.state.inStart = false)
    (hne : p.parents ≠ []) : p.cur.startTagEnd ≠ none := by
  obtain ⟨q, qs, hq⟩ := List.exists_cons_of_ne_nil hne
  have key : Complete (p.cur :: p.parents) → p.cur.startTagEnd ≠ none := by
    rw [hq]; exact fun h => h.1
  unfold PInv at h
  revert h hs
  cases s.state <;> intro h hs <;> first
    | (cases hs; done)
    | exact key (StackOK.complete h)
    | (obtain ⟨_, _, _, _, _, _, _, _, _, h⟩ := h.ex; exact key h.complete)
    | (obtain ⟨_, _, _, _, _, _, _, _, h⟩ := h.ex; exact key h.complete)

theorem SegInv.step {h : List Tok} {p p' : PState} {s s' : Sc} (hi : SegInv void h p s)
    (hp : PInv c void p s) (hst : Step c s s') (hne : s'.tokenType ≠ .EOS)
    (hs : parseStep c void p s' = .ok p') : SegInv void (h ++ [s'.tok]) p' s' := by
  have hf := hst.startFacts hne
  have hg := hst.endFacts hne
  have hoff : s'.tok.offset = s.pos := hst.offset_eq
  have hty : s'.tok.type = s'.tokenType := rfl
  have nodes : AllEntry void (h ++ [s'.tok]) (p.cur :: p.parents) := fun q hq => (hi.stack q hq).mono _
  have cur := nodes p.cur (by simp)
  have rest : AllEntry void (h ++ [s'.tok]) p.parents := fun q hq => nodes q (by simp [hq])
  have setCur : ∀ m : Node, Entry void (h ++ [s'.tok]) m →
      AllEntry void (h ++ [s'.tok]) (m :: p.parents) := by
    intro m hm q hq
    rcases List.mem_cons.1 hq with rfl | hq
    · exact hm
    · exact rest q hq
  have onS : s'.tokenType ≠ .StartTagOpen → p'.cur.start = p.cur.start →
      p'.cur.startTagEnd = p.cur.startTagEnd → s'.state.inStart = true →
      p'.cur.startTagEnd = none ∧ OpenSeg .StartTagOpen (h ++ [s'.tok]) p'.cur.start := by
    intro h1 h2 h3 h4
    obtain ⟨h5, h6⟩ := hf.stay h4 h1
    obtain ⟨h7, h8⟩ := hi.start h5
    exact ⟨by rw [h3, h7], by rw [h2]; exact h8.snoc h6⟩
  have onE : s'.tokenType ≠ .EndTagOpen → p'.endTagStart = p.endTagStart → s'.state.inEnd = true →
      ∃ e, p'.endTagStart = some e ∧ OpenSeg .EndTagOpen (h ++ [s'.tok]) e := by
    intro h1 h2 h3
    obtain ⟨h4, h5⟩ := hg.stay h3 h1
    obtain ⟨e, h6, h7⟩ := hi.ends h4
    exact ⟨e, by rw [h2, h6], h7.snoc h5⟩
  unfold parseStep at hs
  split at hs
  · -- StartTagOpen
    rename_i ht
    cases hs
    obtain ⟨h1, h2, h3⟩ := hf.enter ht
    refine ⟨?_, fun _ => ⟨rfl, h, s'.tok, [], rfl, ht, rfl, by simp⟩, fun hx => ?_⟩
    · intro q hq
      rcases List.mem_cons.1 hq with rfl | hq
      · exact ⟨by simp [Opened, Node.new], rfl, by simp [Node.new]⟩
      · exact nodes q hq
    · rw [h2] at hx; cases hx
  · -- StartTag
    rename_i ht
    obtain ⟨t, h1, hs⟩ := bind_ok hs
    cases hs
    exact ⟨setCur _ (cur.modify rfl rfl rfl rfl), onS (by rw [ht]; decide) rfl rfl,
      onE (by rw [ht]; decide) rfl⟩
  · -- StartTagClose
    rename_i ht
    obtain ⟨hin, hout⟩ := hf.close (.inl ht)
    obtain ⟨i1, i2⟩ := hi.start hin
    have noS : s'.state.inStart = true → False := fun h => by rw [hout] at h; cases h
    have noE : s'.state.inEnd = true → False := fun h => by
      have h1 := (hg.stay h (by rw [ht]; decide)).2
      rw [ht] at h1; cases h1
    have seg := i2.close (x := s'.tok) (.inl ht)
    split at hs
    · cases hs; exact ⟨nodes, fun h => (noS h).elim, fun h => (noE h).elim⟩
    · simp only at hs
      split at hs
      · rename_i hl
        have hlt : s'.tok.offset < s'.tok.stop := by
          show s'.tokenOffset < s'.pos
          unfold Sc.tokenLength at hl; omega
        split at hs
        · rename_i hv
          refine ⟨AllEntry.pop hs ?_ cur.kids rest, fun h => (noS h).elim, fun h => (noE h).elim⟩
          refine ⟨by simp, fun e he => ?_, fun e he => ?_⟩
          · cases he
            refine ⟨s'.tok, seg, hlt, rfl, fun _ => ⟨rfl, cur.ets⟩, fun _ _ _ => ?_⟩
            obtain ⟨t, h1, h2⟩ := (Option.any_eq_true ..).1 hv
            exact ⟨t, by simpa using h2, h1⟩
          · simp only [cur.ets] at he; cases he
        · cases hs
          refine ⟨setCur _ ⟨?_, cur.ets, cur.kids⟩, fun h => (noS h).elim, fun h => (noE h).elim⟩
          intro e he
          cases he
          exact ⟨s'.tok, seg, hlt, rfl, ht⟩
      · rename_i hl
        refine ⟨AllEntry.pop hs ?_ cur.kids rest, fun h => (noS h).elim, fun h => (noE h).elim⟩
        refine ⟨fun _ => ⟨s'.tok, seg, ht, ?_, rfl⟩, fun e he => ?_, fun e he => ?_⟩
        · show ¬ s'.tokenOffset < s'.pos
          unfold Sc.tokenLength at hl; omega
        · simp only [i1] at he; cases he
        · simp only [cur.ets] at he; cases he
  · -- StartTagSelfClose
    rename_i ht
    obtain ⟨hin, hout⟩ := hf.close (.inr ht)
    obtain ⟨i1, i2⟩ := hi.start hin
    have noS : s'.state.inStart = true → False := fun h => by rw [hout] at h; cases h
    have noE : s'.state.inEnd = true → False := fun h => by
      have h1 := (hg.stay h (by rw [ht]; decide)).2
      rw [ht] at h1; cases h1
    have seg := i2.close (x := s'.tok) (.inr ht)
    split at hs
    · cases hs; exact ⟨nodes, fun h => (noS h).elim, fun h => (noE h).elim⟩
    · refine ⟨AllEntry.pop hs ?_ cur.kids rest, fun h => (noS h).elim, fun h => (noE h).elim⟩
      have hlt : s'.tok.offset < s'.tok.stop := by
        have hx := hst.textOK hne
        unfold TextOK at hx
        simp only [show s'.tok.type = .StartTagSelfClose from ht] at hx
        rcases Nat.lt_or_ge s'.tok.offset s'.tok.stop with h | h
        · exact h
        · rw [text, List.drop_eq_nil_of_le (by simp; omega)] at hx; cases hx
      refine ⟨by simp, fun e he => ?_, fun e he => ?_⟩
      · cases he
        exact ⟨s'.tok, seg, hlt, rfl, fun _ => ⟨rfl, cur.ets⟩, fun hx => by rw [hty, ht] at hx; cases hx⟩
      · simp only [cur.ets] at he; cases he
  · -- EndTagOpen
    rename_i ht
    cases hs
    obtain ⟨h1, h2⟩ := hg.enter ht
    refine ⟨nodes, fun hx => ?_, fun _ => ⟨_, rfl, h, s'.tok, [], rfl, ht, rfl, by simp⟩⟩
    rw [h1] at hx; cases hx
  · -- EndTag
    rename_i ht
    obtain ⟨t, _, hs⟩ := bind_ok hs
    cases hs
    exact ⟨nodes, onS (by rw [ht]; decide) rfl rfl, onE (by rw [ht]; decide) rfl⟩
  · -- EndTagClose
    rename_i ht
    obtain ⟨hin, hout⟩ := hg.close ht
    have noS : s'.state.inStart = true → False := fun h => by
      have h1 := (hf.stay h (by rw [ht]; decide)).2
      rw [ht] at h1; cases h1
    have noE : s'.state.inEnd = true → False := fun h => by rw [hout] at h; cases h
    obtain ⟨e, he1, he2⟩ := hi.ends hin
    have seg := he2.closeEnd (x := s'.tok) ht
    simp only at hs
    split at hs
    · rename_i hd
      obtain ⟨p1, h1, hs⟩ := bind_ok hs
      obtain ⟨i1, i2, i3⟩ := nodes.popUnclosed (hp.complete hin) h1
      have c1 := i1 p1.cur (by simp)
      refine ⟨AllEntry.pop hs ?_ c1.kids (fun q hq => i1 q (by simp [hq])), fun h => (noS h).elim,
        fun h => (noE h).elim⟩
      have hpar : ∃ q qs, p1.parents = q :: qs := by
        unfold PState.pop at hs
        split at hs
        · cases hs
        · exact ⟨_, _, by assumption⟩
      obtain ⟨q, qs, hq⟩ := hpar
      rw [hq] at i2
      refine ⟨fun hx => absurd hx i2.1, fun e' he' => ?_, fun e' he' => ?_⟩
      · obtain ⟨x, h2, h3, h4, h5⟩ := c1.opened e' he'
        refine ⟨x, h2, h3, h4, fun hx => by (rw [h5] at hx; cases hx), fun _ _ hx => ?_⟩
        simp only [i3, he1] at hx; cases hx
      · simp only [i3, he1, Option.some.injEq] at he'
        subst he'
        exact ⟨s'.tok, seg, rfl⟩
    · cases hs
      exact ⟨nodes, fun h => (noS h).elim, fun h => (noE h).elim⟩
  · -- AttributeName
    rename_i ht
    obtain ⟨t, _, hs⟩ := bind_ok hs
    cases hs
    exact ⟨setCur _ (cur.modify rfl rfl rfl rfl), onS (by rw [ht]; decide) rfl rfl,
      onE (by rw [ht]; decide) rfl⟩
  · -- DelimiterAssign
    rename_i ht
    split at hs
    · obtain ⟨m, hm, hs⟩ := bind_ok hs
      cases hs
      exact ⟨setCur _ (cur.modify rfl rfl rfl rfl), onS (by rw [ht]; decide) rfl rfl,
        onE (by rw [ht]; decide) rfl⟩
    · cases hs
      exact ⟨nodes, onS (by rw [ht]; decide) rfl rfl, onE (by rw [ht]; decide) rfl⟩
  · -- AttributeValue
    rename_i ht
    obtain ⟨t, _, hs⟩ := bind_ok hs
    split at hs
    · obtain ⟨m, hm, hs⟩ := bind_ok hs
      cases hs
      exact ⟨setCur _ (cur.modify rfl rfl rfl rfl), onS (by rw [ht]; decide) rfl rfl,
        onE (by rw [ht]; decide) rfl⟩
    · cases hs
      exact ⟨nodes, onS (by rw [ht]; decide) rfl rfl, onE (by rw [ht]; decide) rfl⟩
  · rename_i h1 h2 h3 h4 h5 h6 h7 h8 h9 h10
    cases hs
    exact ⟨nodes, onS h1 rfl rfl, onE h5 rfl⟩

theorem parseLoop_segs {f : Nat} {p p' : PState} {s : Sc} {h ts : List Tok} (hi : SegInv void h p s)
    (hp : PInv c void p s) (hl : parseLoop c void f p s = .ok p') (ht : tokensF c f s = .ok ts) :
    ∃ s', SegInv void (h ++ ts) p' s' ∧ PInv c void p' s' ∧ c.src.length ≤ s'.pos := by
  induction f generalizing p s h ts with
  | zero => cases hl
  | succ f ih =>
    unfold parseLoop at hl
    unfold tokensF at ht
    obtain ⟨s1, h1, hl⟩ := bind_ok hl
    rw [h1] at ht
    have hst := scan_step h1
    simp only [bind, Except.bind] at ht
    split at hl
    · rename_i heos
      rw [if_pos heos] at ht
      cases hl; cases ht
      exact ⟨s, by simpa using hi, hp, hst.eos_iff.1 heos⟩
    · rename_i hne
      rw [if_neg hne] at ht
      obtain ⟨p1, h2, hl⟩ := bind_ok hl
      obtain ⟨ts', h3, ht⟩ := bind_ok ht
      cases ht
      obtain ⟨p2, h4, h5⟩ := hp.step hst hne (fun hn => by
        obtain ⟨t, ht⟩ := parseStep_text h2 hn
        exact tokenText_eq ht hst.offset_eq)
      rw [h2] at h4
      cases h4
      obtain ⟨s', i1, i2, i3⟩ := ih (hi.step hp hst hne h2) h5 hl h3
      exact ⟨s', by simpa using i1, i2, i3⟩

/-- The tags of an element of a parsed document. -/
structure Tags (void : List Str) (len : Nat) (h : List Tok) (n : Node) : Prop where
  cut : n.startTagEnd = none →
    (∃ x, StartSeg h n.start x ∧ x.type = .StartTagClose ∧ ¬ x.offset < x.stop ∧ x.stop = n.stop) ∨
    (OpenSeg .StartTagOpen h n.start ∧ n.stop = len)
  full : ∀ e, n.startTagEnd = some e → ∃ x, StartSeg h n.start x ∧ x.offset < x.stop ∧ x.stop = e ∧
    (x.type = .StartTagSelfClose → n.closed = true ∧ n.endTagStart = none) ∧
    (x.type = .StartTagClose → n.closed = true → n.endTagStart = none → ∃ t ∈ void, n.tag = some t)
  ends : ∀ e, n.endTagStart = some e → ∃ x, EndSeg h e x ∧ x.stop = n.stop

theorem Fin.tags {h : List Tok} {n : Node} {len : Nat} (hf : Fin void h n) : Tags void len h n :=
  ⟨fun hn => .inl (hf.cut hn), hf.full, hf.ends⟩

theorem finishAll_tags {h : List Tok} (len : Nat) (n : Node) (ps : List Node)
    (hs : AllEntry void h ps) (hc : Complete ps) (hn : Opened h n) (hets : n.endTagStart = none)
    (hk : ∀ d ∈ n.children, Deep (Tags void len h) d)
    (ho : n.startTagEnd = none → ps ≠ [] → OpenSeg .StartTagOpen h n.start) :
    ∀ d ∈ (finishAll len n ps).children, Deep (Tags void len h) d := by
  induction ps generalizing n with
  | nil => exact hk
  | cons q qs ih =>
    rw [finishAll]
    have hq := hs q (by simp)
    refine ih _ (fun x hx => hs x (by simp [hx])) ?_ hq.opened hq.ets ?_ ?_
    · cases qs with
      | nil => trivial
      | cons r rs => exact hc.2
    · intro d hd
      rcases List.mem_append.1 hd with hd | hd
      · exact (hq.kids d hd).imp fun _ => Fin.tags
      · rw [List.mem_singleton] at hd
        subst hd
        refine ⟨⟨fun hx => .inr ⟨ho hx (by simp), rfl⟩, fun e he => ?_, fun e he => ?_⟩, hk⟩
        · obtain ⟨x, h1, h2, h3, h4⟩ := hn e he
          exact ⟨x, h1, h2, h3, by simp [h4], by simp⟩
        · simp only [hets] at he; cases he
    · intro hx hne
      cases qs with
      | nil => exact absurd rfl hne
      | cons r rs => exact absurd hx hc.1

theorem parse_tags {u : Uni} {cs : Bool} {src : Str} {roots : List Node} {ts : List Tok}
    (h : parse u cs void src = .ok roots)
    (ht : tokens (parserCfg u cs src) (.new 0 .WithinContent) = .ok ts) {n : Node}
    (hn : InForest roots n) : Tags void src.length ts n := by
  unfold parse at h
  obtain ⟨p, h1, h⟩ := bind_ok h
  cases h
  rw [← parse_tokens] at ht
  have hi : SegInv void [] (PState.init src.length) (.new 0 .WithinContent) := by
    refine ⟨?_, by simp [Sc.new, SS.inStart], by simp [Sc.new, SS.inEnd]⟩
    intro q hq
    simp only [PState.init, List.mem_singleton] at hq
    subst hq
    exact ⟨by simp [Opened, Node.new], rfl, by simp [Node.new]⟩
  obtain ⟨s', i1, i2, i3⟩ := parseLoop_segs (c := parserCfg u cs src) hi PInv.init h1 ht
  rw [List.nil_append] at i1
  have hcur := i1.stack p.cur (by simp)
  have hk := finishAll_tags src.length p.cur p.parents (fun q hq => i1.stack q (by simp [hq]))
    i2.parents hcur.opened hcur.ets (fun d hd => (hcur.kids d hd).imp fun _ => Fin.tags) (fun hx hne => by
      cases hs : s'.state.inStart with
      | true => exact (i1.start hs).2
      | false => exact absurd hx (i2.curFull hs hne))
  obtain ⟨h3, _⟩ := deep_forest hk hn
  exact h3

end Html
