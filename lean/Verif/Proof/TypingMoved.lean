import Verif.Proof.Moved
import Verif.Model.Completion

/-! # Closing tags and quotes while typing, behind a complete text -/

namespace Html
open Spec

/-! ### Finding nodes -/

theorem firstIdxB_shift {o k : Nat} : ∀ l : List Node,
    firstIdx (fun ch => decide (o + k ≤ ch.start)) (Node.shifts k l) = firstIdx (fun ch => decide (o ≤ ch.start)) l
  | [] => rfl
  | ⟨tag, start, stop, children, closed, ste, ets, attrs⟩ :: l => by
    simp only [Node.shifts, firstIdx, firstIdxB_shift l, Node.shift, Nat.add_le_add_iff_right]

theorem lastChild_shift {k : Nat} {n : Node} :
    ((n.shift k).lastChild.any fun l => l.stop == (n.shift k).stop) = n.lastChild.any fun l => l.stop == n.stop := by
  cases n with
  | mk tag start stop children closed ste ets attrs =>
    simp only [Node.lastChild, Node.shift, shifts_map, List.getLast?_map]
    cases children.getLast? with
    | none => rfl
    | some m =>
      simp only [Option.map_some, Option.any_some, shift_stop]
      by_cases h : m.stop = stop
      · rw [h, beq_self_eq_true, beq_self_eq_true]
      · rw [beq_false_of_ne h, beq_false_of_ne (by omega)]

mutual
theorem findBefore_shift (o k : Nat) : ∀ n : Node,
    Node.findBefore (o + k) (n.shift k) = ((Node.findBefore o n).1.shift k, Node.shifts k (Node.findBefore o n).2)
  | ⟨tag, start, stop, children, closed, ste, ets, attrs⟩ => by
    have ih := findBeforeNth_shift o k children
    simp only [Node.shift, Node.findBefore]
    rw [firstIdxB_shift]
    by_cases h : firstIdx (fun ch => decide (o ≤ ch.start)) children > 0
    · rw [if_pos h, if_pos h, ih]
      cases Node.findBeforeNth o (firstIdx (fun ch => decide (o ≤ ch.start)) children - 1) children <;>
        simp [Node.shifts, Node.shift]
    · rw [if_neg h, if_neg h]
      simp [Node.shifts, Node.shift]
theorem findBeforeNth_shift (o k : Nat) : ∀ (l : List Node) (i : Nat),
    Node.findBeforeNth (o + k) i (Node.shifts k l) =
      (Node.findBeforeNth o i l).map fun r => (r.1.shift k, Node.shifts k r.2)
  | [], i => by cases i <;> rfl
  | n :: l, 0 => by
    have ih := findBefore_shift o k n
    simp only [Node.shifts, Node.findBeforeNth]
    rw [lastChild_shift, shift_start, shift_stop]
    by_cases h : o > n.start
    · rw [if_pos h, if_pos (by omega)]
      by_cases h2 : o < n.stop
      · rw [if_pos h2, if_pos (by omega), ih]; rfl
      · rw [if_neg h2, if_neg (by omega)]
        split
        · rw [ih]; rfl
        · rfl
    · rw [if_neg h, if_neg (by omega)]; rfl
  | n :: l, i + 1 => by
    simp only [Node.shifts, Node.findBeforeNth]
    exact findBeforeNth_shift o k l i
end

theorem findBeforeNth_append {o i : Nat} {l l' : List Node} :
    Node.findBeforeNth o (l.length + i) (l ++ l') = Node.findBeforeNth o i l' := by
  induction l with
  | nil => simp
  | cons n l ih =>
    rw [List.cons_append, List.length_cons, show l.length + 1 + i = (l.length + i) + 1 by omega, Node.findBeforeNth, ih]

theorem firstIdx_first {p : Node → Bool} {a : Node} {l : List Node} (h : p a = false) : firstIdx p (a :: l) > 0 := by
  rw [firstIdx, h]; simp; omega

section
variable {void : List Str} {u : Uni} {cs : Bool} {pre : Str} {front roots roots' : List Node} {e p : Pos} {d d' : TextDoc}

theorem before_behind {a : Node} (hc : ClosedText u cs void pre front) (hb : PutBehind pre e d d')
    (h : parse u cs void d.text = .ok roots) (h' : parse u cs void d'.text = .ok roots')
    (ha : roots.head? = some a) (hp : a.start < d.offsetAt p) :
    findNodeBefore roots' (d.offsetAt p + pre.length) =
      (findNodeBefore roots (d.offsetAt p)).map fun r => (r.1.shift pre.length, Node.shifts pre.length r.2) := by
  rw [roots_behind hc hb h h']
  unfold findNodeBefore
  dsimp only
  have h0 : firstIdx (fun ch => decide (d.offsetAt p ≤ ch.start)) roots > 0 := by
    cases roots with
    | nil => cases ha
    | cons x l =>
      cases ha
      exact firstIdx_first (by simp; omega)
  rw [firstIdx_append (fun n hn => by
      have := (hc.inside n hn).1; simp; omega), firstIdxB_shift, if_pos h0, if_pos (by omega), Nat.add_sub_assoc h0,
    findBeforeNth_append, findBeforeNth_shift]

/-! ### The loops -/

theorem endsAt_behind {c : Cfg} {t : TT} {o f : Nat} {s : Sc} :
    endsAt (c.behind pre) t (o + pre.length) f (s.shift pre.length) = endsAt c t o f s := by
  induction f generalizing s with
  | zero => rfl
  | succ f ih =>
    unfold endsAt
    rw [show scan (c.behind pre) (s.shift pre.length) = _ from scan_shift]
    change (if s.tokenType ≠ .EOS ∧ s.pos + pre.length ≤ o + pre.length then
      (if s.tokenType = t ∧ s.pos + pre.length = o + pre.length then _ else _) else _) = _
    by_cases hq : s.tokenType ≠ .EOS ∧ s.pos ≤ o
    · rw [if_pos hq, if_pos ⟨hq.1, by omega⟩]
      by_cases ha : s.tokenType = t ∧ s.pos = o
      · rw [if_pos ha, if_pos ⟨ha.1, by omega⟩]
      · rw [if_neg ha, if_neg (fun h => ha ⟨h.1, by omega⟩)]
        cases scan c s with
        | error e => rfl
        | ok s1 => exact ih
    · rw [if_neg hq, if_neg (fun h => hq ⟨h.1, by omega⟩)]

theorem endsAt_fuel {c : Cfg} {t : TT} {o f : Nat} {s : Sc}
    (hf : (s.tokenType = .EOS ∧ 0 < f) ∨ mu c s + 1 < f) (g : Nat) : endsAt c t o (f + g) s = endsAt c t o f s := by
  induction f generalizing s with
  | zero => omega
  | succ f ih =>
    have e : f + 1 + g = (f + g) + 1 := by omega
    rw [e]
    unfold endsAt
    by_cases hq : s.tokenType ≠ .EOS ∧ s.pos ≤ o
    · rw [if_pos hq, if_pos hq]
      have hf := hf.resolve_left fun h => hq.1 h.1
      split
      · rfl
      · cases h1 : scan c s with
        | error e => rfl
        | ok s1 =>
          refine ih ?_
          by_cases he : s1.tokenType = .EOS
          · exact .inl ⟨he, by omega⟩
          · have := (scan_step h1).mu_lt he
            exact .inr (by omega)
    · rw [if_neg hq, if_neg hq]

theorem quoteLoop_behind {c : Cfg} {v : Str} {o f : Nat} {s : Sc} (ho : 0 < o) :
    quoteLoop (c.behind pre) (o + pre.length) v f (s.shift pre.length) = quoteLoop c o v f s := by
  induction f generalizing s with
  | zero => rfl
  | succ f ih =>
    unfold quoteLoop
    rw [show scan (c.behind pre) (s.shift pre.length) = _ from scan_shift]
    change (if s.tokenType ≠ .EOS ∧ s.pos + pre.length ≤ o + pre.length then
      (if s.tokenType = .AttributeName ∧ s.pos + pre.length = o + pre.length - 1 then _ else _) else _) = _
    by_cases hq : s.tokenType ≠ .EOS ∧ s.pos ≤ o
    · rw [if_pos hq, if_pos ⟨hq.1, by omega⟩]
      by_cases ha : s.tokenType = .AttributeName ∧ s.pos = o - 1
      · rw [if_pos ha, if_pos ⟨ha.1, by omega⟩]
        cases scan c s with
        | error e => rfl
        | ok s1 =>
          simp only [Except.map, bind, Except.bind]
          rw [show (Sc.shift pre.length s1).tokenType = s1.tokenType from rfl]
          split
          · rfl
          · rw [show scan (c.behind pre) (s1.shift pre.length) = _ from scan_shift]
            cases scan c s1 <;> rfl
      · rw [if_neg ha, if_neg (fun h => ha ⟨h.1, by omega⟩)]
        cases scan c s with
        | error e => rfl
        | ok s1 => exact ih
    · rw [if_neg hq, if_neg (fun h => hq ⟨h.1, by omega⟩)]

theorem quoteLoop_fuel {c : Cfg} {v : Str} {o f : Nat} {s : Sc}
    (hf : (s.tokenType = .EOS ∧ 0 < f) ∨ mu c s + 1 < f) (g : Nat) : quoteLoop c o v (f + g) s = quoteLoop c o v f s := by
  induction f generalizing s with
  | zero => omega
  | succ f ih =>
    have e : f + 1 + g = (f + g) + 1 := by omega
    rw [e]
    unfold quoteLoop
    by_cases hq : s.tokenType ≠ .EOS ∧ s.pos ≤ o
    · rw [if_pos hq, if_pos hq]
      have hf := hf.resolve_left fun h => hq.1 h.1
      by_cases ha : s.tokenType = .AttributeName ∧ s.pos = o - 1
      · rw [if_pos ha, if_pos ha]
      · rw [if_neg ha, if_neg ha]
        cases h1 : scan c s with
        | error e => rfl
        | ok s1 =>
          refine ih ?_
          by_cases he : s1.tokenType = .EOS
          · exact .inl ⟨he, by omega⟩
          · have := (scan_step h1).mu_lt he
            exact .inr (by omega)
    · rw [if_neg hq, if_neg hq]

theorem fuel_after_new {c : Cfg} {a : Nat} {s : Sc} (h : scan c (.new a .WithinContent) = .ok s) :
    (s.tokenType = .EOS ∧ 0 < 2 * c.src.length + 2) ∨ mu c s + 1 < 2 * c.src.length + 2 := by
  by_cases he : s.tokenType = .EOS
  · exact .inl ⟨he, by omega⟩
  · have := (scan_step h).mu_lt he
    have := mu_new (c := c) (o := a)
    exact .inr (by omega)

section
variable {env : CompEnv}

theorem cfg_behind (hb : PutBehind pre e d d') (b : Bool) : env.cfg d' b = (env.cfg d b).behind pre := by
  unfold CompEnv.cfg; rw [hb.text]; rfl

theorem scanEnds_behind (hb : PutBehind pre e d d') {t : TT} {a o : Nat} :
    (scan (env.cfg d' false) (.new (a + pre.length) .WithinContent) >>= fun s =>
      endsAt (env.cfg d' false) t (o + pre.length) (2 * d'.text.length + 2) s) =
    (scan (env.cfg d false) (.new a .WithinContent) >>= fun s =>
      endsAt (env.cfg d false) t o (2 * d.text.length + 2) s) := by
  rw [cfg_behind hb, scan_new, show scan ((env.cfg d false).behind pre) ((Sc.new a .WithinContent).shift pre.length) = _ from scan_shift]
  cases hs : scan (env.cfg d false) (.new a .WithinContent) with
  | error x => rfl
  | ok s =>
    simp only [Except.map, bind, Except.bind]
    rw [endsAt_behind, hb.text, List.length_append, show 2 * (pre.length + d.text.length) + 2 = 2 * d.text.length + 2 + 2 * pre.length by omega,
      endsAt_fuel (f := 2 * d.text.length + 2) (fuel_after_new hs)]

theorem scanQuote_behind (hb : PutBehind pre e d d') {v : Str} {a o : Nat} (ho : 0 < o) :
    (scan (env.cfg d' false) (.new (a + pre.length) .WithinContent) >>= fun s =>
      quoteLoop (env.cfg d' false) (o + pre.length) v (2 * d'.text.length + 2) s) =
    (scan (env.cfg d false) (.new a .WithinContent) >>= fun s =>
      quoteLoop (env.cfg d false) o v (2 * d.text.length + 2) s) := by
  rw [cfg_behind hb, scan_new, show scan ((env.cfg d false).behind pre) ((Sc.new a .WithinContent).shift pre.length) = _ from scan_shift]
  cases hs : scan (env.cfg d false) (.new a .WithinContent) with
  | error x => rfl
  | ok s =>
    simp only [Except.map, bind, Except.bind]
    rw [quoteLoop_behind ho, hb.text, List.length_append, show 2 * (pre.length + d.text.length) + 2 = 2 * d.text.length + 2 + 2 * pre.length by omega,
      quoteLoop_fuel (f := 2 * d.text.length + 2) (fuel_after_new hs)]

theorem getStr_behind (hb : PutBehind pre e d d') {a b : Nat} :
    getStr d'.text (a + pre.length) (b + pre.length) = getStr d.text a b := by
  unfold getStr
  rw [hb.text, shift_slice]

theorem getStr_last (hb : PutBehind pre e d d') {o : Nat} (ho : 0 < o) :
    getStr d'.text (o + pre.length - 1) (o + pre.length) = getStr d.text (o - 1) o := by
  rw [show o + pre.length - 1 = (o - 1) + pre.length by omega, getStr_behind hb]

theorem beforeEnd_shift {n : Node} {o k : Nat} : beforeEnd (n.shift k) (o + k) = beforeEnd n o := by
  unfold beforeEnd
  rw [shift_start, shift_endTagStart]
  cases n.endTagStart <;> simp

theorem isOpen_shift {n : Node} {o k : Nat} : isOpen (o + k) (n.shift k) = isOpen o n := by
  unfold isOpen
  rw [shift_endTagStart, show (n.shift k).closed = n.closed by cases n; rfl]
  cases n.endTagStart <;> simp

theorem firstUp_shift {n : Node} {ps : List Node} {o k : Nat} :
    firstUp (isOpen (o + k)) (n.shift k) (Node.shifts k ps) = (firstUp (isOpen o) n ps).map (Node.shift k) := by
  unfold firstUp
  rw [shifts_map, ← List.map_reverse, ← List.map_cons, List.find?_map]
  congr 2
  funext m
  exact isOpen_shift

theorem quote_moved {a : Node} (hc : ClosedText u cs void pre front) (hb : PutBehind pre e d d')
    (h : parse u cs void d.text = .ok roots) (h' : parse u cs void d'.text = .ok roots')
    (ha : roots.head? = some a) (hp : a.start < d.offsetAt p) :
    doQuoteComplete env d' (Pos.after e p) roots' = doQuoteComplete env d p roots := by
  unfold doQuoteComplete
  dsimp only
  rw [hb.off, if_neg (show ¬ d.offsetAt p + pre.length = 0 by omega), if_neg (show ¬ d.offsetAt p = 0 by omega), getStr_last hb (by omega), before_behind hc hb h h' ha hp]
  split
  · rfl
  · cases env.quotes.pair with
    | none => rfl
    | some v =>
      cases findNodeBefore roots (d.offsetAt p) with
      | none => rfl
      | some r =>
        simp only [Option.map_some, beforeEnd_shift, shift_start]
        split
        · exact scanQuote_behind hb (by omega)
        · rfl

theorem bind_assoc_R {α β γ : Type} {x : R α} {f : α → R β} {g : β → R γ} :
    (x >>= fun a => f a >>= g) = (x >>= f) >>= g := by
  cases x <;> rfl

theorem tag_moved {a : Node} (hc : ClosedText u cs void pre front) (hb : PutBehind pre e d d')
    (h : parse u cs void d.text = .ok roots) (h' : parse u cs void d'.text = .ok roots')
    (ha : roots.head? = some a) (hp : a.start < d.offsetAt p) :
    doTagComplete env d' (Pos.after e p) roots' = doTagComplete env d p roots := by
  unfold doTagComplete
  dsimp only
  rw [hb.off, if_neg (show ¬ d.offsetAt p + pre.length = 0 by omega), if_neg (show ¬ d.offsetAt p = 0 by omega), getStr_last hb (by omega)]
  have h1 : completeStart env d' (d.offsetAt p + pre.length) roots' = completeStart env d (d.offsetAt p) roots := by
    unfold completeStart
    rw [before_behind hc hb h h' ha hp]
    cases findNodeBefore roots (d.offsetAt p) with
    | none => rfl
    | some r =>
      simp only [Option.map_some, beforeEnd_shift, shift_start, shift_tag]
      cases r.1.tag with
      | none => rfl
      | some tag =>
        simp only
        split
        · rw [bind_assoc_R, scanEnds_behind hb, ← bind_assoc_R]
        · rfl
  have h2 : completeEnd env d' (d.offsetAt p + pre.length) roots' = completeEnd env d (d.offsetAt p) roots := by
    unfold completeEnd
    rw [before_behind hc hb h h' ha hp]
    cases findNodeBefore roots (d.offsetAt p) with
    | none => rfl
    | some r =>
      simp only [Option.map_some, firstUp_shift]
      cases firstUp (isOpen (d.offsetAt p)) r.1 r.2 with
      | none => rfl
      | some n =>
        simp only [Option.map_some, shift_tag, shift_start]
        cases n.tag with
        | none => rfl
        | some tag =>
          simp only
          rw [bind_assoc_R, scanEnds_behind hb, ← bind_assoc_R,
            show d.offsetAt p + pre.length + 1 = d.offsetAt p + 1 + pre.length by omega, getStr_behind hb]
  rw [h1, h2]

end

end

end Html
