import Verif.Proof.TreeLemmas

/-! # The parser invariant -/

namespace Html
open Spec

/-- `P` holds for a node and all its descendants. -/
inductive Deep (P : Node → Prop) : Node → Prop
  | mk {n : Node} (h : P n) (hc : ∀ d ∈ n.children, Deep P d) : Deep P n

/-- What holds for every finished node. -/
structure Done (c : Cfg) (void : List Str) (n : Node) : Prop where
  lt : n.start < n.stop
  le : n.stop ≤ c.src.length
  opn : c.src[n.start]? = some 60
  name : NameIs c.uni c.src (n.start + 1) n.tag (n.startTagEnd.getD n.stop)
  attrs : ∀ x ∈ n.attributes, AttrAt c.src n.start (n.startTagEnd.getD n.stop) x.1 x.2
  nodup : (n.attributes.map (·.1)).Nodup
  ste : ∀ e, n.startTagEnd = some e → n.start < e ∧ At c.src (e - 1) b!">" ∧
    Siblings e n.children (contentEnd n) ∧ contentEnd n ≤ n.stop
  noste : n.startTagEnd = none → n.children = [] ∧ n.endTagStart = none ∧ n.closed = false ∧
    (c.src[n.stop]? = some 60 ∨ n.stop = c.src.length)
  ets : ∀ e, n.endTagStart = some e → n.closed = true ∧ At c.src e b!"</" ∧ n.startTagEnd ≠ none ∧
    ∃ name, SameName c.uni c.caseSensitive n.tag name ∧
      ((At c.src (n.stop - 1) b!">" ∧ NameIs c.uni c.src (e + 2) name (n.stop - 1)) ∨
       (c.src[n.stop]? = some 60 ∧ NameIs c.uni c.src (e + 2) name n.stop))
  cls : n.closed = true → n.endTagStart = none → n.startTagEnd = some n.stop ∧
    n.children = [] ∧ (At c.src (n.stop - 2) b!"/>" ∨ ∃ t, n.tag = some t ∧ t ∈ void)
  left : ∀ d ∈ n.children, LeftOpen d → n.children.getLast? = some d ∧ d.stop = contentEnd n
  inner : ∀ e, n.endTagStart = some e → ∀ m, OpenInside n m →
    m.stop = e ∧ ¬ SameName c.uni c.caseSensitive m.tag n.tag
  voidE : ∀ t, n.tag = some t → t ∈ void → n.startTagEnd ≠ none →
    n.closed = true ∧ n.endTagStart = none
  slash : ∀ e, n.startTagEnd = some e → At c.src (e - 2) b!"/>" →
    (n.closed = true ∧ n.endTagStart = none) ∨ n.tag = none ∨ SlashValue c.src n.attributes (e - 1)

/-- Children of an open node whose content has been read up to `hi`. -/
structure Kids (c : Cfg) (void : List Str) (Q : Node → Prop) (lo hi : Nat) (l : List Node) : Prop where
  sib : Siblings lo l hi
  le : hi ≤ c.src.length
  done : ∀ d ∈ l, Deep (Done c void) d
  left : ∀ d ∈ l, LeftOpen d → l.getLast? = some d ∧ d.stop = hi ∧ Q d ∧
    ∀ m, OpenInside d m → m.stop = hi ∧ Q m

/-- An element whose start tag is complete and which has not been closed. -/
structure OpenN (c : Cfg) (void : List Str) (Q : Node → Prop) (hi : Nat) (n : Node) : Prop where
  opn : c.src[n.start]? = some 60
  closed : n.closed = false
  ets : n.endTagStart = none
  nodup : (n.attributes.map (·.1)).Nodup
  notVoid : ∀ t, n.tag = some t → t ∉ void
  ste : ∃ e, n.startTagEnd = some e ∧ n.start < e ∧ At c.src (e - 1) b!">" ∧
    NameIs c.uni c.src (n.start + 1) n.tag e ∧
    (∀ x ∈ n.attributes, AttrAt c.src n.start e x.1 x.2) ∧
    (At c.src (e - 2) b!"/>" → n.tag = none ∨ SlashValue c.src n.attributes (e - 1)) ∧
    Kids c void Q e hi n.children

def NoLeft : Node → Prop := fun _ => False

/-- The stack of open nodes, innermost first; the last one is the document. -/
def StackOK (c : Cfg) (void : List Str) (Q : Node → Prop) (hi : Nat) : List Node → Prop
  | [] => False
  | [r] => Kids c void Q 0 hi r.children
  | q :: q2 :: qs => OpenN c void Q hi q ∧ StackOK c void NoLeft q.start (q2 :: qs)

variable {c : Cfg} {void : List Str}

theorem Kids.mono {lo hi hi' : Nat} {l : List Node} (h : Kids c void NoLeft lo hi l) (h1 : hi ≤ hi')
    (h2 : hi' ≤ c.src.length) : Kids c void NoLeft lo hi' l :=
  ⟨h.sib.mono h1, h2, h.done, fun d hd ho => absurd (h.left d hd ho).2.2.1 (fun h => h)⟩

theorem Kids.anyQ {Q : Node → Prop} {lo hi : Nat} {l : List Node} (h : Kids c void NoLeft lo hi l) :
    Kids c void Q lo hi l :=
  ⟨h.sib, h.le, h.done, fun d hd ho => absurd (h.left d hd ho).2.2.1 (fun h => h)⟩

theorem Kids.snoc {Q : Node → Prop} {lo hi : Nat} {l : List Node} {n : Node}
    (h : Kids c void NoLeft lo n.start l) (hd : Deep (Done c void) n) (hs : n.stop = hi)
    (hq : LeftOpen n → Q n ∧ ∀ m, OpenInside n m → m.stop = hi ∧ Q m) :
    Kids c void Q lo hi (l ++ [n]) := by
  obtain ⟨hd1, hd2⟩ := hd
  refine ⟨h.sib.snoc hd1.lt (by omega), by rw [← hs]; exact hd1.le, ?_, ?_⟩
  · intro d hm
    rcases List.mem_append.1 hm with hm | hm
    · exact h.done d hm
    · rw [List.mem_singleton] at hm; subst hm; exact ⟨hd1, hd2⟩
  · intro d hm ho
    rcases List.mem_append.1 hm with hm | hm
    · exact absurd (h.left d hm ho).2.2.1 (fun h => h)
    · rw [List.mem_singleton] at hm; subst hm
      exact ⟨by simp, hs, hq ho⟩

theorem OpenN.mono {hi hi' : Nat} {n : Node} (h : OpenN c void NoLeft hi n) (h1 : hi ≤ hi')
    (h2 : hi' ≤ c.src.length) : OpenN c void NoLeft hi' n := by
  obtain ⟨e, he1, he2, he3, he4, he5, hsl, he6⟩ := h.ste
  exact ⟨h.opn, h.closed, h.ets, h.nodup, h.notVoid, e, he1, he2, he3, he4, he5, hsl, he6.mono h1 h2⟩

theorem OpenN.anyQ {Q : Node → Prop} {hi : Nat} {n : Node} (h : OpenN c void NoLeft hi n) :
    OpenN c void Q hi n := by
  obtain ⟨e, he1, he2, he3, he4, he5, hsl, he6⟩ := h.ste
  exact ⟨h.opn, h.closed, h.ets, h.nodup, h.notVoid, e, he1, he2, he3, he4, he5, hsl, he6.anyQ⟩

theorem StackOK.mono {hi hi' : Nat} {l : List Node} (h : StackOK c void NoLeft hi l) (h1 : hi ≤ hi')
    (h2 : hi' ≤ c.src.length) : StackOK c void NoLeft hi' l := by
  match l, h with
  | [r], h => exact Kids.mono h h1 h2
  | q :: q2 :: qs, h => exact ⟨h.1.mono h1 h2, h.2⟩

theorem StackOK.anyQ {Q : Node → Prop} {hi : Nat} {l : List Node} (h : StackOK c void NoLeft hi l) :
    StackOK c void Q hi l := by
  match l, h with
  | [r], h => exact Kids.anyQ h
  | q :: q2 :: qs, h => exact ⟨h.1.anyQ, h.2⟩

/-- A finished child is appended to the innermost open node. -/
theorem StackOK.add {Q : Node → Prop} {hi : Nat} {q : Node} {qs : List Node} {n : Node}
    (h : StackOK c void NoLeft n.start (q :: qs)) (hd : Deep (Done c void) n) (hs : n.stop = hi)
    (hq : LeftOpen n → Q n ∧ ∀ m, OpenInside n m → m.stop = hi ∧ Q m) :
    StackOK c void Q hi (q.addChild n :: qs) := by
  match qs, h with
  | [], h => exact Kids.snoc h hd hs hq
  | q2 :: qs, h =>
    obtain ⟨h, h2⟩ := h
    obtain ⟨e, he1, he2, he3, he4, he5, hsl, he6⟩ := h.ste
    exact ⟨⟨h.opn, h.closed, h.ets, h.nodup, h.notVoid, e, he1, he2, he3, he4, he5, hsl,
      he6.snoc hd hs hq⟩, h2⟩

/-- An open element that is left open when something around it ends at `hi`. -/
theorem OpenN.leave {Q : Node → Prop} {hi : Nat} {n : Node} (h : OpenN c void Q hi n) :
    Deep (Done c void) { n with stop := hi, closed := false } ∧
    ∀ m, OpenInside { n with stop := hi, closed := false } m → m.stop = hi ∧ Q m := by
  obtain ⟨e, he1, he2, he3, he4, he5, hsl, hk⟩ := h.ste
  have hle := hk.sib.le
  refine ⟨⟨?_, hk.done⟩, ?_⟩
  · refine ⟨by simp only; omega, hk.le, h.opn, ?_, ?_, h.nodup, ?_, ?_, ?_, ?_, ?_, ?_, ?_, ?_⟩
    · simpa [he1] using he4
    · simpa [he1] using he5
    · intro e' he'
      simp only [he1, Option.some.injEq] at he'
      subst he'
      refine ⟨he2, he3, ?_, ?_⟩
      · simpa [contentEnd, h.ets] using hk.sib
      · simp [contentEnd, h.ets]
    · simp [he1]
    · intro e' he'; simp [h.ets] at he'
    · simp
    · intro d hd ho
      have := hk.left d hd ho
      exact ⟨this.1, by simpa [contentEnd, h.ets] using this.2.1⟩
    · intro e' he'; simp [h.ets] at he'
    · intro t ht hv; exact absurd hv (h.notVoid t ht)
    · intro e' he' hat
      simp only [he1, Option.some.injEq] at he'
      subst he'
      exact .inr (hsl hat)
  · intro m hm
    obtain ⟨d, hd, ho, hm⟩ := hm.head
    obtain ⟨_, h2, h3, h4⟩ := hk.left d hd ho
    rcases hm with hm | hm
    · subst hm; exact ⟨h2, h3⟩
    · exact h4 m hm

theorem StackOK.leave {Q : Node → Prop} {hi : Nat} {n q : Node} {qs : List Node}
    (h : StackOK c void Q hi (n :: q :: qs)) (hq : Q { n with stop := hi, closed := false }) :
    StackOK c void Q hi (q.addChild { n with stop := hi, closed := false } :: qs) := by
  have := h.1.leave
  exact StackOK.add (n := { n with stop := hi, closed := false }) h.2 this.1 rfl (fun _ => ⟨hq, this.2⟩)

/-- Everything still open at the end of the text. -/
theorem finishAll_ok {Q : Node → Prop} (hQ : ∀ n, Q n) {n : Node} {ps : List Node}
    (h : StackOK c void Q c.src.length (n :: ps)) :
    Kids c void Q 0 c.src.length (finishAll c.src.length n ps).children := by
  induction ps generalizing n with
  | nil => exact h
  | cons q qs ih => exact ih (h.leave (hQ _))

/-! ### End tags -/

/-- Nodes not matched by an end tag. -/
def NotNamed (c : Cfg) (raw : Option Str) : Node → Prop :=
  fun m => ¬ SameName c.uni c.caseSensitive m.tag raw

theorem matchDepth_le (u : Uni) (cs : Bool) (name : Option Str) (q : Node) (qs : List Node) :
    matchDepth u cs name q qs ≤ qs.length := by
  induction qs generalizing q with
  | nil => simp [matchDepth]
  | cons r rs ih =>
    simp only [matchDepth]
    have := ih r
    split <;> simp only [List.length_cons] <;> omega

theorem matchDepth_addChild (u : Uni) (cs : Bool) (name : Option Str) (q d : Node) (qs : List Node) :
    matchDepth u cs name (q.addChild d) qs = matchDepth u cs name q qs := by
  cases qs <;> rfl

theorem popUnclosed_ok {raw : Option Str} {e : Nat} {ps : List Node} {p : PState}
    (hps : p.parents = ps) (he : p.endTagStart = some e)
    (h : StackOK c void (NotNamed c raw) e (p.cur :: p.parents))
    (hd : 0 < matchDepth c.uni c.caseSensitive (raw.map (foldName c.uni c.caseSensitive)) p.cur p.parents) :
    ∃ p', popUnclosed (p.parents.length -
        matchDepth c.uni c.caseSensitive (raw.map (foldName c.uni c.caseSensitive)) p.cur p.parents) p = .ok p' ∧
      StackOK c void (NotNamed c raw) e (p'.cur :: p'.parents) ∧ p'.endTagStart = some e ∧
      SameName c.uni c.caseSensitive p'.cur.tag raw ∧ p'.parents ≠ [] := by
  induction ps generalizing p with
  | nil => rw [hps] at hd; simp [matchDepth] at hd
  | cons q qs ih =>
    rw [hps] at hd h ⊢
    simp only [matchDepth] at hd ⊢
    split
    · rename_i hm
      refine ⟨p, by simp [popUnclosed], ?_, he, (isSameTag_iff _ _ _ _).1 hm, by simp [hps]⟩
      rw [hps]; exact h
    · rename_i hm
      rw [if_neg hm] at hd
      have hle := matchDepth_le c.uni c.caseSensitive (raw.map (foldName c.uni c.caseSensitive)) q qs
      have e1 : (q :: qs).length - matchDepth c.uni c.caseSensitive (raw.map (foldName c.uni c.caseSensitive)) q qs
        = (qs.length - matchDepth c.uni c.caseSensitive (raw.map (foldName c.uni c.caseSensitive)) q qs) + 1 := by
        simp only [List.length_cons]; omega
      rw [e1]
      have hn : NotNamed c raw { p.cur with stop := e, closed := false } :=
        fun hs => hm ((isSameTag_iff _ _ _ _).2 hs)
      have h2 := h.leave hn
      have := ih (p := { p with cur := q.addChild { p.cur with stop := e, closed := false }, parents := qs })
        rfl he h2 (by rw [matchDepth_addChild]; exact hd)
      simpa [matchDepth_addChild, popUnclosed, he, unwrap, bind, Except.bind, PState.pop, hps] using this

/-- The effect of an end tag. -/
theorem endTag_ok {raw : Option Str} {e pos : Nat} {p : PState} {s : Sc}
    (he : p.endTagStart = some e) (hn : p.endTagName = raw.map (foldName c.uni c.caseSensitive))
    (h : StackOK c void NoLeft e (p.cur :: p.parents)) (hat : At c.src e b!"</")
    (hty : s.tokenType = .EndTagClose) (hpos : s.tokenEnd = pos) (hle : pos ≤ c.src.length) (hlt : e < pos)
    (hname : (At c.src (pos - 1) b!">" ∧ NameIs c.uni c.src (e + 2) raw (pos - 1)) ∨
       (c.src[pos]? = some 60 ∧ NameIs c.uni c.src (e + 2) raw pos)) :
    ∃ p', parseStep c void p s = .ok p' ∧ StackOK c void NoLeft pos (p'.cur :: p'.parents) := by
  unfold parseStep
  rw [hty]
  simp only [hn]
  split
  · rename_i hd
    obtain ⟨p1, h1, h2, h3, h4, h5⟩ := popUnclosed_ok (raw := raw) rfl he h.anyQ hd
    rw [h1]
    simp only [bind, Except.bind, h3, hpos]
    obtain ⟨q, qs, hq⟩ := List.exists_cons_of_ne_nil h5
    rw [hq] at h2
    obtain ⟨ho, hs⟩ := h2
    refine ⟨_, by simp only [PState.pop, hq]; rfl, ?_⟩
    obtain ⟨ste, he1, he2, he3, he4, he5, hsl, hk⟩ := ho.ste
    have hsle := hk.sib.le
    refine StackOK.add (n := { p1.cur with closed := true, endTagStart := some e, stop := pos }) hs
      ⟨?_, hk.done⟩ rfl ?_
    · refine ⟨by simp only; omega, hle, ho.opn, ?_, ?_, ho.nodup, ?_, ?_, ?_, ?_, ?_, ?_, ?_, ?_⟩
      · simpa [he1] using he4
      · simpa [he1] using he5
      · intro e' he'
        simp only [he1, Option.some.injEq] at he'
        subst he'
        exact ⟨he2, he3, hk.sib, by simp only [contentEnd, Option.getD_some]; omega⟩
      · simp [he1]
      · intro e' he'
        simp only [Option.some.injEq] at he'
        subst he'
        exact ⟨rfl, hat, by simp [he1], raw, h4, hname⟩
      · simp
      · intro d hd ho
        have := hk.left d hd ho
        exact ⟨this.1, this.2.1⟩
      · intro e' he' m hm
        simp only [Option.some.injEq] at he'
        subst he'
        obtain ⟨d, hd, ho, hm⟩ := hm.head
        obtain ⟨_, h2, h3, h5⟩ := hk.left d hd ho
        have key : m.stop = e ∧ NotNamed c raw m := by
          rcases hm with hm | hm
          · subst hm; exact ⟨h2, h3⟩
          · exact h5 m hm
        exact ⟨key.1, fun hx => key.2 (SameName.trans hx h4)⟩
      · intro t ht hv; exact absurd hv (ho.notVoid t ht)
      · intro e' he' hat
        simp only [he1, Option.some.injEq] at he'
        subst he'
        exact .inr (hsl hat)
    · intro hl; simp [LeftOpen] at hl
  · exact ⟨p, rfl, h.mono (by omega) hle⟩

end Html
