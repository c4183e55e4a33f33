import Verif.Proof.ParseRun
import Verif.Proof.Restart

/-! # Totality of the parser and the invariant of its result -/

namespace Html
open Spec

variable {c : Cfg} {void : List Str}

theorem parseStep_text {p p' : PState} {s : Sc} (h : parseStep c void p s = .ok p')
    (hn : named s.tokenType = true) : ∃ t, tokenText c s = .ok t := by
  cases ht : tokenText c s with
  | ok t => exact ⟨t, rfl⟩
  | error e =>
    unfold parseStep at h
    revert h hn
    cases s.tokenType <;> intro h hn <;> first | (cases hn; done) | (simp [ht, bind, Except.bind] at h)

theorem tokenText_eq {s s' : Sc} {t : Str} (h : tokenText c s' = .ok t) (ho : s'.tokenOffset = s.pos) :
    tokenText c s' = .ok (bytesIn c.src s.pos s'.pos) := by
  rw [h]
  have := (sliceStr_ok h).2.2.2.2
  rw [this, ho]

theorem parseLoop_inv {f : Nat} {p p' : PState} {s : Sc} (hi : PInv c void p s)
    (h : parseLoop c void f p s = .ok p') :
    ∃ s', PInv c void p' s' ∧ c.src.length ≤ s'.pos := by
  induction f generalizing p s with
  | zero => cases h
  | succ f ih =>
    unfold parseLoop at h
    obtain ⟨s1, h1, h⟩ := bind_ok h
    have hst := scan_step h1
    split at h
    · rename_i he
      cases h
      exact ⟨s, hi, hst.eos_iff.1 he⟩
    · rename_i hne
      obtain ⟨p1, h2, h⟩ := bind_ok h
      obtain ⟨p2, h3, h4⟩ := hi.step hst hne (fun hn => by
        obtain ⟨t, ht⟩ := parseStep_text h2 hn
        exact tokenText_eq ht hst.offset_eq)
      rw [h2] at h3
      cases h3
      exact ih h4 h

def AnyNode : Node → Prop := fun _ => True

theorem StackOK.le {Q : Node → Prop} {hi : Nat} {l : List Node} (h : StackOK c void Q hi l) :
    hi ≤ c.src.length := by
  match l, h with
  | [r], h => exact Kids.le h
  | q :: q2 :: qs, h =>
    obtain ⟨_, _, _, _, _, _, _, hk⟩ := h.1.ste
    exact hk.le

theorem InTag.finish {p : PState} {pos : Nat} (h : InTag c void p pos) :
    Kids c void AnyNode 0 c.src.length (finishAll c.src.length p.cur p.parents).children := by
  obtain ⟨q, qs, hq⟩ : ∃ q qs, p.parents = q :: qs := by
    have := h.stack
    cases hp : p.parents with
    | nil => rw [hp] at this; exact absurd this (fun h => h)
    | cons q qs => exact ⟨q, qs, rfl⟩
  have hst := h.stack
  rw [hq] at hst ⊢
  have hcl : ({ p.cur with stop := c.src.length, closed := false } : Node) =
      { p.cur with stop := c.src.length } := by rw [← h.core.closed]
  simp only [finishAll]
  rw [hcl]
  refine finishAll_ok (fun _ => trivial) ?_
  refine StackOK.add (n := { p.cur with stop := c.src.length }) hst
    (h.cut h.core.le (Nat.le_refl _) (.inr rfl)) rfl ?_
  intro ho; exact absurd h.core.ste ho.2

theorem InContent.finish {p : PState} {pos : Nat} (h : InContent c void p pos) :
    Kids c void AnyNode 0 c.src.length (finishAll c.src.length p.cur p.parents).children :=
  finishAll_ok (fun _ => trivial) (StackOK.anyQ (StackOK.mono h h.le (Nat.le_refl _)))

theorem PInv.finish {p : PState} {s : Sc} (h : PInv c void p s) (hp : c.src.length ≤ s.pos) :
    Kids c void AnyNode 0 c.src.length (finishAll c.src.length p.cur p.parents).children := by
  unfold PInv at h
  split at h
  · exact h.finish
  · exact h.finish
  · exact h.finish
  · exact h.finish
  · exact h.finish
  · obtain ⟨e, w, _, _, _, _, _, _, _, h8⟩ := h
    exact InContent.finish (pos := e) h8
  · obtain ⟨e, raw, _, _, _, _, _, _, h8⟩ := h
    exact InContent.finish (pos := e) h8
  · refine (h.noName ?_).finish
    intro b hb
    have := (List.getElem?_eq_some_iff.1 hb).1
    omega
  · exact h.finish
  · exact h.tag.finish
  · exact h.tag.finish

theorem PInv.init : PInv c void (.init c.src.length) (.new 0 .WithinContent) :=
  ⟨Nat.le_refl _, Nat.zero_le _, fun d hd => by simp [PState.init, Node.new] at hd,
    fun d hd => by simp [PState.init, Node.new] at hd⟩

/-- The invariant of parsed documents. -/
theorem parse_kids {u : Uni} {cs : Bool} {src : Str} {roots : List Node}
    (h : parse u cs void src = .ok roots) :
    Kids (parserCfg u cs src) void AnyNode 0 src.length roots := by
  unfold parse at h
  obtain ⟨p, h1, h⟩ := bind_ok h
  cases h
  obtain ⟨s', h2, h3⟩ := parseLoop_inv (c := parserCfg u cs src) PInv.init h1
  exact h2.finish h3

theorem deep_forest {P : Node → Prop} {l : List Node} (h : ∀ d ∈ l, Deep P d) {n : Node}
    (hn : InForest l n) : Deep P n := by
  induction hn with
  | root hm => exact h _ hm
  | child hm hc ih => obtain ⟨_, h2⟩ := ih; exact h2 _ hc

theorem parse_done {u : Uni} {cs : Bool} {src : Str} {roots : List Node} {n : Node}
    (h : parse u cs void src = .ok roots) (hn : InForest roots n) :
    Done (parserCfg u cs src) void n := by
  obtain ⟨h1, _⟩ := deep_forest (parse_kids h).done hn
  exact h1

/-! ### Panics -/

/-- If the scanner gets to the end, so does the parser. -/
theorem parseLoop_total {f : Nat} {p : PState} {s : Sc} {ts : List Tok} (hc : AsciiNext c.src)
    (hi : PInv c void p s) (h : tokensF c f s = .ok ts) :
    ∃ p', parseLoop c void f p s = .ok p' := by
  induction f generalizing p s ts with
  | zero => cases h
  | succ f ih =>
    unfold tokensF at h
    obtain ⟨s1, h1, h⟩ := bind_ok h
    have hst := scan_step h1
    unfold parseLoop
    rw [h1]
    simp only [bind, Except.bind]
    split at h
    · rename_i he; exact ⟨p, by rw [if_pos he]⟩
    · rename_i hne
      obtain ⟨ts', h2, h⟩ := bind_ok h
      obtain ⟨p2, h3, h4⟩ := hi.step hst hne (hst.text_ok hc)
      rw [if_neg hne, h3]
      exact ih h4 h2

theorem parseLoop_tokens {f : Nat} {p p' : PState} {s : Sc} (h : parseLoop c void f p s = .ok p') :
    ∃ ts, tokensF c f s = .ok ts := by
  induction f generalizing p s with
  | zero => cases h
  | succ f ih =>
    unfold parseLoop at h
    obtain ⟨s1, h1, h⟩ := bind_ok h
    unfold tokensF
    rw [h1]
    simp only [bind, Except.bind]
    split at h
    · rename_i he; exact ⟨[], by rw [if_pos he]; rfl⟩
    · rename_i hne
      obtain ⟨p1, h2, h⟩ := bind_ok h
      obtain ⟨ts, hts⟩ := ih h
      exact ⟨s1.tok :: ts, by rw [if_neg hne, hts]; rfl⟩

/-- The parser never fails an `unwrap`. -/
theorem parseLoop_err {f : Nat} {p : PState} {s : Sc} {e : Panic} (hi : PInv c void p s)
    (hf : mu c s < f) (h : parseLoop c void f p s = .error e) : e = .slice := by
  induction f generalizing p s with
  | zero => omega
  | succ f ih =>
    unfold parseLoop at h
    rcases bind_err h with h | ⟨s1, h1, h⟩
    · exact scan_err h
    · have hst := scan_step h1
      split at h
      · cases h
      · rename_i hne
        have hmu := hst.mu_lt hne
        by_cases hn : named s1.tokenType = true
        · cases ht : tokenText c s1 with
          | error e' =>
            have he : e' = .slice := (sliceStr_err ht).1
            subst he
            have : parseStep c void p s1 = .error .slice := by
              unfold parseStep
              revert hn
              cases s1.tokenType <;> intro hn <;> first | (cases hn; done) | (simp only [ht]; rfl)
            rw [this] at h
            cases h; rfl
          | ok t =>
            obtain ⟨p2, h3, h4⟩ := hi.step hst hne (fun _ => tokenText_eq ht hst.offset_eq)
            rw [h3] at h
            exact ih h4 (by omega) h
        · obtain ⟨p2, h3, h4⟩ := hi.step hst hne (fun hx => absurd hx hn)
          rw [h3] at h
          exact ih h4 (by omega) h

/-! ### Pre-order -/

theorem preorder_append (a b : List Node) : preorder (a ++ b) = preorder a ++ preorder b := by
  induction a with
  | nil => simp [preorder]
  | cons n a ih => simp [preorder, ih]

theorem preNode_eq (n : Node) : preNode n = n.start :: preorder n.children := by
  cases n; simp [preNode]

/-- Pre-order of the tree under construction: `ps` are the open nodes, innermost first. -/
def zipPre : List Node → List Nat
  | [] => []
  | [r] => preorder r.children
  | n :: ps => zipPre ps ++ n.start :: preorder n.children

theorem zipPre_cons {n : Node} {ps : List Node} (h : ps ≠ []) :
    zipPre (n :: ps) = zipPre ps ++ n.start :: preorder n.children := by
  cases ps with
  | nil => exact absurd rfl h
  | cons => rfl

theorem zipPre_add {q n : Node} {qs : List Node} :
    zipPre (q.addChild n :: qs) = zipPre (n :: q :: qs) := by
  have hp : preorder [n] = n.start :: preorder n.children := by
    simp [preorder, preNode_eq]
  cases qs with
  | nil => simp [zipPre, Node.addChild, preorder_append, hp]
  | cons a l => simp [zipPre, Node.addChild, preorder_append, hp]

theorem zipPre_congr {n n' : Node} {ps : List Node} (h1 : n'.start = n.start)
    (h2 : n'.children = n.children) : zipPre (n' :: ps) = zipPre (n :: ps) := by
  cases ps <;> simp [zipPre, h1, h2]

theorem pop_pre {p p' : PState} (h : p.pop = .ok p') :
    zipPre (p'.cur :: p'.parents) = zipPre (p.cur :: p.parents) := by
  unfold PState.pop at h
  split at h
  · cases h
  · rename_i q qs hq
    cases h
    rw [hq]; exact zipPre_add

theorem popUnclosed_pre {k : Nat} {p p' : PState} (h : popUnclosed k p = .ok p') :
    zipPre (p'.cur :: p'.parents) = zipPre (p.cur :: p.parents) := by
  induction k generalizing p with
  | zero => cases h; rfl
  | succ k ih =>
    unfold popUnclosed at h
    obtain ⟨e, _, h⟩ := bind_ok h
    obtain ⟨p1, h1, h⟩ := bind_ok h
    rw [ih h, pop_pre h1]
    exact zipPre_congr rfl rfl

theorem parseStep_pre {p p' : PState} {s : Sc} (h : parseStep c void p s = .ok p') :
    zipPre (p'.cur :: p'.parents) = zipPre (p.cur :: p.parents) ++
      (if s.tokenType = .StartTagOpen then [s.tokenOffset] else []) := by
  unfold parseStep at h
  split at h
  · rename_i ht
    cases h
    simp [ht, zipPre, Node.new, preorder]
  · rename_i ht
    obtain ⟨t, _, h⟩ := bind_ok h
    cases h
    simp only [ht, reduceCtorEq, if_false, List.append_nil]
    exact zipPre_congr rfl rfl
  · rename_i ht
    simp only [ht, reduceCtorEq, if_false, List.append_nil]
    split at h
    · cases h; rfl
    · simp only at h
      split at h
      · split at h
        · rw [pop_pre h]; exact zipPre_congr rfl rfl
        · cases h; exact zipPre_congr rfl rfl
      · rw [pop_pre h]; exact zipPre_congr rfl rfl
  · rename_i ht
    simp only [ht, reduceCtorEq, if_false, List.append_nil]
    split at h
    · cases h; rfl
    · rw [pop_pre h]; exact zipPre_congr rfl rfl
  · rename_i ht
    cases h
    simp [ht]
  · rename_i ht
    obtain ⟨t, _, h⟩ := bind_ok h
    cases h
    simp [ht]
  · rename_i ht
    simp only [ht, reduceCtorEq, if_false, List.append_nil]
    simp only at h
    split at h
    · obtain ⟨p1, h1, h⟩ := bind_ok h
      rw [pop_pre h, ← popUnclosed_pre h1]
      exact zipPre_congr rfl rfl
    · cases h; rfl
  · rename_i ht
    obtain ⟨t, _, h⟩ := bind_ok h
    cases h
    simp only [ht, reduceCtorEq, if_false, List.append_nil]
    exact zipPre_congr rfl rfl
  · rename_i ht
    simp only [ht, reduceCtorEq, if_false, List.append_nil]
    split at h
    · obtain ⟨m, _, h⟩ := bind_ok h
      cases h
      exact zipPre_congr rfl rfl
    · cases h; rfl
  · rename_i ht
    simp only [ht, reduceCtorEq, if_false, List.append_nil]
    obtain ⟨t, _, h⟩ := bind_ok h
    split at h
    · obtain ⟨m, _, h⟩ := bind_ok h
      cases h
      exact zipPre_congr rfl rfl
    · cases h; rfl
  · rename_i h1 h2 h3 h4 h5 h6 h7 h8 h9 h10
    cases h
    rw [if_neg h1, List.append_nil]

theorem parseLoop_pre {f : Nat} {p p' : PState} {s : Sc} {ts : List Tok}
    (h : parseLoop c void f p s = .ok p') (ht : tokensF c f s = .ok ts) :
    zipPre (p'.cur :: p'.parents) = zipPre (p.cur :: p.parents) ++
      (ts.filter (fun t => t.type = .StartTagOpen)).map (·.offset) := by
  induction f generalizing p s ts with
  | zero => cases h
  | succ f ih =>
    unfold parseLoop at h
    unfold tokensF at ht
    obtain ⟨s1, h1, h⟩ := bind_ok h
    rw [h1] at ht
    simp only [bind, Except.bind] at ht
    split at h
    · rename_i he
      rw [if_pos he] at ht
      cases ht; cases h; simp
    · rename_i hne
      rw [if_neg hne] at ht
      obtain ⟨p1, h2, h⟩ := bind_ok h
      obtain ⟨ts', h3, ht⟩ := bind_ok ht
      cases ht
      rw [ih h h3, parseStep_pre h2, List.append_assoc]
      congr 1
      by_cases hx : s1.tokenType = .StartTagOpen
      · simp [hx, Sc.tok]
      · simp [hx, Sc.tok]

theorem finishAll_pre (len : Nat) (n : Node) (ps : List Node) :
    preorder (finishAll len n ps).children = zipPre (n :: ps) := by
  induction ps generalizing n with
  | nil => rfl
  | cons q qs ih =>
    rw [finishAll, ih, zipPre_add]
    exact zipPre_congr rfl rfl

end Html
