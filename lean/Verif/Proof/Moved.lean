import Verif.Spec.Moved
import Verif.Proof.ParseConcat
import Verif.Proof.Symbols
import Verif.Proof.LineEndingsServices
import Verif.Props.Locality

/-! # Text in front of a closed text only moves the answers -/

namespace Html
open Spec

/-! ### Positions -/

theorem isBreak_append {b : Nat} {t x : Str} (h : t ≠ [] ∨ b ≠ 13) : isBreak b (t ++ x) = isBreak b t := by
  cases t with
  | cons a t => simp [isBreak]
  | nil =>
    have : b ≠ 13 := h.resolve_left (by simp)
    have h2 : (b == 13) = false := by simpa using this
    simp only [isBreak, h2, Bool.false_and]

theorem refPosAt_behind {x : Str} {o : Nat} : ∀ {pre : Str}, pre.getLast? ≠ some 13 →
    refPosAt (pre ++ x) (o + pre.length) = Pos.after (refPosAt pre pre.length) (refPosAt x o)
  | [], _ => by
    have : refPosAt ([] : Str) 0 = ⟨0, 0⟩ := by unfold refPosAt; rfl
    simp [Pos.after, this]
  | b :: t, h => by
    have hb : isBreak b (t ++ x) = isBreak b t := isBreak_append (by
      cases t with
      | nil => exact .inr (by simpa using h)
      | cons _ _ => exact .inl (by simp))
    have ih := refPosAt_behind (x := x) (o := o) (pre := t) (by
      cases t with
      | nil => simp
      | cons a t => simpa [List.getLast?_cons_cons] using h)
    rw [List.cons_append, List.length_cons, ← Nat.add_assoc, refPosAt, hb]
    conv => rhs; rw [refPosAt]
    rw [ih]
    generalize refPosAt t t.length = e
    generalize refPosAt x o = p
    unfold Pos.after
    obtain ⟨el, ec⟩ := e
    obtain ⟨pl, pc⟩ := p
    by_cases h1 : isBreak b t <;> by_cases h2 : el = 0 <;> by_cases h3 : pl = 0 <;> simp [h1, h2, h3] <;> omega

theorem refOffsetAt_behind {x : Str} {p : Pos} : ∀ {pre : Str}, pre.getLast? ≠ some 13 →
    refOffsetAt (pre ++ x) (Pos.after (refPosAt pre pre.length) p).line (Pos.after (refPosAt pre pre.length) p).character =
      refOffsetAt x p.line p.character + pre.length
  | [], _ => by
    have : refPosAt ([] : Str) 0 = ⟨0, 0⟩ := by unfold refPosAt; rfl
    simp [Pos.after, this]
  | b :: t, h => by
    have hb : isBreak b (t ++ x) = isBreak b t := isBreak_append (by
      cases t with
      | nil => exact .inr (by simpa using h)
      | cons _ _ => exact .inl (by simp))
    have ih := refOffsetAt_behind (x := x) (p := p) (pre := t) (by
      cases t with
      | nil => simp
      | cons a t => simpa [List.getLast?_cons_cons] using h)
    rw [List.cons_append, List.length_cons]
    rw [show refPosAt (b :: t) (t.length + 1) = (let p := refPosAt t t.length
      if isBreak b t then ⟨p.line + 1, p.character⟩ else if p.line = 0 then ⟨0, units b + p.character⟩ else p) from by
        rw [refPosAt]]
    dsimp only
    revert ih
    generalize refPosAt t t.length = e
    unfold Pos.after
    obtain ⟨el, ec⟩ := e
    obtain ⟨pl, pc⟩ := p
    dsimp only
    intro ih
    by_cases h1 : isBreak b t = true
    · rw [if_pos h1]
      dsimp only
      rw [show el + 1 + pl = (el + pl) + 1 by omega, refOffsetAt, hb, if_pos h1, ih]
      omega
    · rw [if_neg h1]
      by_cases h2 : el = 0
      · subst h2
        rw [if_pos rfl]
        dsimp only
        cases pl with
        | succ pl =>
          rw [if_neg (by omega)] at ih ⊢
          rw [show 0 + (pl + 1) = pl + 1 by omega] at ih ⊢
          rw [refOffsetAt, hb, if_neg h1, ih]
          omega
        | zero =>
          rw [if_pos rfl] at ih ⊢
          rw [show 0 + 0 = 0 from rfl] at ih ⊢
          rw [refOffsetAt, hb]
          by_cases hc : isCont b = true
          · rw [if_pos hc, show units b + ec + pc = ec + pc by simp [units, hc], ih]
            omega
          · have hun : 0 < units b := by unfold units; rw [if_neg hc]; split <;> omega
            rw [if_neg hc, if_neg (by omega), if_neg h1, show units b + ec + pc - units b = ec + pc by omega, ih]
            omega
      · rw [if_neg h2]
        dsimp only
        obtain ⟨k, rfl⟩ : ∃ k, el = k + 1 := ⟨el - 1, by omega⟩
        rw [show k + 1 + pl = (k + pl) + 1 by omega] at ih ⊢
        rw [refOffsetAt, hb, if_neg h1, ih]
        omega

theorem ref_behind {pre x : Str} (h : pre.getLast? ≠ some 13) :
    PutBehind pre (refPosAt pre pre.length) (.ref x) (.ref (pre ++ x)) :=
  ⟨rfl, fun _ => refPosAt_behind h, fun _ => refOffsetAt_behind h⟩

/-! ### Finding nodes -/

theorem firstIdx_shift {o k : Nat} : ∀ l : List Node,
    firstIdx (fun ch => decide (o + k < ch.start)) (Node.shifts k l) = firstIdx (fun ch => decide (o < ch.start)) l
  | [] => rfl
  | ⟨tag, start, stop, children, closed, ste, ets, attrs⟩ :: l => by
    simp only [Node.shifts, firstIdx, firstIdx_shift l, Node.shift, Nat.add_lt_add_iff_right]

mutual
theorem findAt_shift (o k : Nat) : ∀ n : Node,
    Node.findAt (o + k) (n.shift k) = ((Node.findAt o n).1.shift k, Node.shifts k (Node.findAt o n).2)
  | ⟨tag, start, stop, children, closed, ste, ets, attrs⟩ => by
    have ih := findAtNth_shift o k children
    simp only [Node.shift, Node.findAt]
    rw [firstIdx_shift]
    by_cases h : firstIdx (fun ch => decide (o < ch.start)) children > 0
    · rw [if_pos h, if_pos h, ih]
      cases Node.findAtNth o (firstIdx (fun ch => decide (o < ch.start)) children - 1) children <;>
        simp [Node.shifts, Node.shift]
    · rw [if_neg h, if_neg h]
      simp [Node.shifts, Node.shift]
theorem findAtNth_shift (o k : Nat) : ∀ (l : List Node) (i : Nat),
    Node.findAtNth (o + k) i (Node.shifts k l) =
      (Node.findAtNth o i l).map fun r => (r.1.shift k, Node.shifts k r.2)
  | [], i => by cases i <;> rfl
  | n :: l, 0 => by
    have ih := findAt_shift o k n
    simp only [Node.shifts, Node.findAtNth]
    rw [show (n.shift k).start = n.start + k by cases n; rfl, show (n.shift k).stop = n.stop + k by cases n; rfl]
    by_cases h : o ≥ n.start ∧ o < n.stop
    · rw [if_pos h, if_pos (by omega), ih]; rfl
    · rw [if_neg h, if_neg (by omega)]; rfl
  | n :: l, i + 1 => by
    simp only [Node.shifts, Node.findAtNth]
    exact findAtNth_shift o k l i
end

theorem firstIdx_append {p : Node → Bool} {l l' : List Node} (h : ∀ n ∈ l, p n = false) :
    firstIdx p (l ++ l') = l.length + firstIdx p l' := by
  induction l with
  | nil => simp
  | cons n l ih =>
    rw [List.cons_append, firstIdx, h n (by simp), ih fun m hm => h m (by simp [hm])]
    simp; omega

theorem findAtNth_append {o i : Nat} {l l' : List Node} : Node.findAtNth o (l.length + i) (l ++ l') = Node.findAtNth o i l' := by
  induction l with
  | nil => simp
  | cons n l ih =>
    rw [List.cons_append, List.length_cons, show l.length + 1 + i = (l.length + i) + 1 by omega, Node.findAtNth, ih]

theorem findAtNth_past {o : Nat} {l l' : List Node} (h : ∀ n ∈ l, n.stop ≤ o) {i : Nat} (hi : i < l.length) :
    Node.findAtNth o i (l ++ l') = none := by
  induction l generalizing i with
  | nil => simp at hi
  | cons n l ih =>
    cases i with
    | zero =>
      have := h n (by simp)
      rw [List.cons_append, Node.findAtNth, if_neg (by omega)]
    | succ i =>
      rw [List.cons_append, Node.findAtNth]
      exact ih (fun m hm => h m (by simp [hm])) (by simpa using hi)

/-- The node behind the others. -/
theorem findNodeAt_behind {o k : Nat} {front l : List Node} (h : ∀ n ∈ front, n.start ≤ k ∧ n.stop ≤ k) :
    findNodeAt (front ++ Node.shifts k l) (o + k) =
      (findNodeAt l o).map fun r => (r.1.shift k, Node.shifts k r.2) := by
  unfold findNodeAt
  dsimp only
  rw [firstIdx_append (fun n hn => by have := h n hn; simp; omega), firstIdx_shift]
  by_cases h0 : firstIdx (fun ch => decide (o < ch.start)) l > 0
  · rw [if_pos h0, if_pos (by omega),
      show front.length + firstIdx (fun ch => decide (o < ch.start)) l - 1 =
        front.length + (firstIdx (fun ch => decide (o < ch.start)) l - 1) by omega, findAtNth_append, findAtNth_shift]
  · rw [if_neg h0]
    have h1 : firstIdx (fun ch => decide (o < ch.start)) l = 0 := by omega
    rw [h1]
    by_cases h2 : front.length > 0
    · rw [if_pos (by omega), findAtNth_past (fun n hn => by have := h n hn; omega) (by omega)]; rfl
    · rw [if_neg (by omega)]; rfl

/-! ### The setting -/

section
variable {void : List Str} {u : Uni} {cs : Bool} {pre : Str} {front roots roots' : List Node} {e p : Pos} {d d' : TextDoc}

theorem ClosedText.last_byte (h : ClosedText u cs void pre front) : pre.getLast? = some 62 := by
  obtain ⟨i, t, hb, _⟩ := h.last
  obtain ⟨x, hx, _⟩ := hb.split
  have hx : pre = x ++ [62] := hx
  rw [hx]; simp

theorem ClosedText.inside (h : ClosedText u cs void pre front) : ∀ n ∈ front, n.start ≤ pre.length ∧ n.stop ≤ pre.length := by
  intro n hn
  have := Props.C12_well_nested _ _ _ _ _ n h.tree (.root hn)
  omega

theorem roots_behind (hc : ClosedText u cs void pre front) (hb : PutBehind pre e d d')
    (h : parse u cs void d.text = .ok roots) (h' : parse u cs void d'.text = .ok roots') :
    roots' = front ++ Node.shifts pre.length roots := by
  rw [hb.text, Props.C68_concat _ _ _ _ _ _ hc, h] at h'
  cases h'
  rw [shifts_map]

theorem found_behind (hc : ClosedText u cs void pre front) (hb : PutBehind pre e d d')
    (h : parse u cs void d.text = .ok roots) (h' : parse u cs void d'.text = .ok roots') :
    findNodeAt roots' (d.offsetAt p + pre.length) =
      (findNodeAt roots (d.offsetAt p)).map fun r => (r.1.shift pre.length, Node.shifts pre.length r.2) := by
  rw [roots_behind hc hb h h']
  exact findNodeAt_behind hc.inside

theorem Spec.PutBehind.range (hb : PutBehind pre e d d') (i j : Nat) :
    (⟨d'.posAt (i + pre.length), d'.posAt (j + pre.length)⟩ : Range) = Range.after e ⟨d.posAt i, d.posAt j⟩ := by
  rw [hb.pos, hb.pos]; rfl

@[simp] theorem shift_tag {n : Node} {k : Nat} : (n.shift k).tag = n.tag := by cases n; rfl
@[simp] theorem shift_start {n : Node} {k : Nat} : (n.shift k).start = n.start + k := by cases n; rfl
@[simp] theorem shift_stop {n : Node} {k : Nat} : (n.shift k).stop = n.stop + k := by cases n; rfl
@[simp] theorem shift_endTagStart {n : Node} {k : Nat} : (n.shift k).endTagStart = n.endTagStart.map (· + k) := by cases n; rfl
@[simp] theorem shift_startTagEnd {n : Node} {k : Nat} : (n.shift k).startTagEnd = n.startTagEnd.map (· + k) := by cases n; rfl

/-! ### The services on tag names -/

theorem linked_moved (hc : ClosedText u cs void pre front) (hb : PutBehind pre e d d')
    (h : parse u cs void d.text = .ok roots) (h' : parse u cs void d'.text = .ok roots') :
    findLinkedEditingRanges d' (Pos.after e p) roots' =
      (findLinkedEditingRanges d p roots).map (List.map (Range.after e)) := by
  unfold findLinkedEditingRanges
  simp only [found_behind hc hb h h', hb.off]
  cases hn : findNodeAt roots (d.offsetAt p) with
  | none => rfl
  | some r =>
    obtain ⟨n, ps⟩ := r
    simp only [Option.map_some, bind, Option.bind, shift_tag, shift_start, shift_endTagStart]
    cases he : n.endTagStart with
    | none => rfl
    | some z =>
      simp only [Option.map_some]
      suffices H : ∀ k, (if n.start + pre.length + 1 ≤ d.offsetAt p + pre.length ∧ d.offsetAt p + pre.length ≤ n.start + pre.length + 1 + k ∨
          z + pre.length + 2 ≤ d.offsetAt p + pre.length ∧ d.offsetAt p + pre.length ≤ z + pre.length + 2 + k then
          some [(⟨d'.posAt (n.start + pre.length + 1), d'.posAt (n.start + pre.length + 1 + k)⟩ : Range),
            ⟨d'.posAt (z + pre.length + 2), d'.posAt (z + pre.length + 2 + k)⟩] else none) =
          Option.map (List.map (Range.after e)) (if n.start + 1 ≤ d.offsetAt p ∧ d.offsetAt p ≤ n.start + 1 + k ∨
          z + 2 ≤ d.offsetAt p ∧ d.offsetAt p ≤ z + 2 + k then
          some [⟨d.posAt (n.start + 1), d.posAt (n.start + 1 + k)⟩, ⟨d.posAt (z + 2), d.posAt (z + 2 + k)⟩] else none) from H _
      intro k
      rw [show n.start + pre.length + 1 = n.start + 1 + pre.length by omega,
        show n.start + 1 + pre.length + k = n.start + 1 + k + pre.length by omega,
        show z + pre.length + 2 = z + 2 + pre.length by omega, show z + 2 + pre.length + k = z + 2 + k + pre.length by omega,
        hb.range, hb.range]
      by_cases hq : n.start + 1 ≤ d.offsetAt p ∧ d.offsetAt p ≤ n.start + 1 + k ∨ z + 2 ≤ d.offsetAt p ∧ d.offsetAt p ≤ z + 2 + k
      · rw [if_pos hq, if_pos (by omega)]; rfl
      · rw [if_neg hq, if_neg (by omega)]; rfl

theorem matching_moved (hc : ClosedText u cs void pre front) (hb : PutBehind pre e d d')
    (h : parse u cs void d.text = .ok roots) (h' : parse u cs void d'.text = .ok roots') :
    findMatchingTagPosition d' (Pos.after e p) roots' = (findMatchingTagPosition d p roots).map (Pos.after e) := by
  unfold findMatchingTagPosition
  simp only [found_behind hc hb h h', hb.off]
  cases hn : findNodeAt roots (d.offsetAt p) with
  | none => rfl
  | some r =>
    obtain ⟨n, ps⟩ := r
    simp only [Option.map_some, bind, Option.bind, shift_tag, shift_start, shift_endTagStart]
    cases ht : n.tag with
    | none => rfl
    | some t =>
      cases he : n.endTagStart with
      | none => rfl
      | some z =>
        simp only [Option.map_some]
        by_cases hq : n.start + 1 ≤ d.offsetAt p ∧ d.offsetAt p ≤ n.start + 1 + t.length
        · rw [if_pos hq, if_pos (by omega), show d.offsetAt p + pre.length - 1 - (n.start + pre.length) + (z + pre.length) + 2 =
            (d.offsetAt p - 1 - n.start + z + 2) + pre.length by omega, hb.pos]; rfl
        · rw [if_neg hq, if_neg (by omega)]
          by_cases hr : z + 2 ≤ d.offsetAt p ∧ d.offsetAt p ≤ z + 2 + t.length
          · rw [if_pos hr, if_pos (by omega), show d.offsetAt p + pre.length - 2 - (z + pre.length) + (n.start + pre.length) + 1 =
              (d.offsetAt p - 2 - z + n.start + 1) + pre.length by omega, hb.pos]; rfl
          · rw [if_neg hr, if_neg (by omega)]; rfl

theorem within_behind {n : Node} {o k : Nat} {t : Str} : isWithinTagRange (n.shift k) (o + k) t = isWithinTagRange n o t := by
  unfold isWithinTagRange
  rw [shift_endTagStart, shift_start]
  cases n.endTagStart <;> simp only [Option.map_none, Option.map_some]
  · congr 1; rw [decide_eq_decide]; omega
  · congr 1 <;> rw [decide_eq_decide] <;> omega

theorem rename_moved {new : Str} (hc : ClosedText u cs void pre front) (hb : PutBehind pre e d d')
    (h : parse u cs void d.text = .ok roots) (h' : parse u cs void d'.text = .ok roots') :
    doRename d' (Pos.after e p) new roots' = (doRename d p new roots).map (List.map (TextEdit.after e)) := by
  unfold doRename
  simp only [found_behind hc hb h h', hb.off]
  cases hn : findNodeAt roots (d.offsetAt p) with
  | none => rfl
  | some r =>
    obtain ⟨n, ps⟩ := r
    simp only [Option.map_some, bind, Option.bind, shift_tag, shift_start, shift_endTagStart, within_behind]
    cases ht : n.tag with
    | none => rfl
    | some t =>
      dsimp only
      rw [show n.start + pre.length + 1 = n.start + 1 + pre.length by omega,
        show n.start + 1 + pre.length + t.length = n.start + 1 + t.length + pre.length by omega, hb.range]
      split
      · cases he : n.endTagStart with
        | none => rfl
        | some z =>
          simp only [Option.map_some]
          rw [show z + pre.length + 2 = z + 2 + pre.length by omega,
            show z + 2 + pre.length + t.length = z + 2 + t.length + pre.length by omega, hb.range]
          rfl
      · rfl

/-! ### Highlights -/

theorem scan_new {c : Cfg} {o k : Nat} :
    scan c (.new (o + k) .WithinContent) = scan c ((Sc.new o .WithinContent).shift k) := by
  rw [scan_eq_internalScan, scan_eq_internalScan]
  rfl

theorem scanTo_behind {c : Cfg} {t : TT} {f : Nat} {s : Sc} :
    scanTo (c.behind pre) t f (s.shift pre.length) = (scanTo c t f s).map (Sc.shift pre.length) := by
  induction f generalizing s with
  | zero => rfl
  | succ f ih =>
    unfold scanTo
    rw [show scan (c.behind pre) (s.shift pre.length) = _ from scan_shift]
    cases scan c s with
    | error e => rfl
    | ok s1 =>
      change (if s1.tokenType = .EOS ∨ s1.tokenType = t then _ else _) = Except.map _ (if s1.tokenType = .EOS ∨ s1.tokenType = t then _ else _)
      split
      · rfl
      · exact ih

theorem tagNameRange_behind {t : TT} {o : Nat} (hb : PutBehind pre e d d') :
    getTagNameRange u cs d' t (o + pre.length) = (getTagNameRange u cs d t o).map (Option.map (Range.after e)) := by
  unfold getTagNameRange
  dsimp only
  have hc : (⟨u, d'.text, false, cs⟩ : Cfg) = Cfg.behind ⟨u, d.text, false, cs⟩ pre := by rw [hb.text]; rfl
  have hl : 2 * d'.text.length + 1 = 2 * d.text.length + 1 + 2 * pre.length := by rw [hb.text, List.length_append]; omega
  have h1 : scanTo ⟨u, d'.text, false, cs⟩ t (2 * d'.text.length + 1) (.new (o + pre.length) .WithinContent) =
      (scanTo ⟨u, d.text, false, cs⟩ t (2 * d.text.length + 1) (.new o .WithinContent)).map (Sc.shift pre.length) := by
    have h2 : scanTo ⟨u, d'.text, false, cs⟩ t (2 * d'.text.length + 1) (.new (o + pre.length) .WithinContent) =
        scanTo ⟨u, d'.text, false, cs⟩ t (2 * d'.text.length + 1) ((Sc.new o .WithinContent).shift pre.length) := by
      rw [scanTo, scan_new, ← scanTo]
    rw [h2, hc, scanTo_behind, hl, scanTo_fuel mu_new]
  rw [h1]
  cases scanTo ⟨u, d.text, false, cs⟩ t (2 * d.text.length + 1) (.new o .WithinContent) with
  | error e => rfl
  | ok s =>
    change (if s.tokenType ≠ .EOS then Except.ok (some (⟨d'.posAt (s.tokenOffset + pre.length), d'.posAt (s.pos + pre.length)⟩ : Range)) else _) =
      Except.map _ (if s.tokenType ≠ .EOS then _ else _)
    rw [hb.range]
    split <;> rfl

theorem after_le {q : Pos} : (Pos.after e p).le (Pos.after e q) = p.le q := by
  unfold Pos.le Pos.after
  rw [decide_eq_decide]
  dsimp only
  split <;> split <;> omega

theorem after_covers {r : Range} : (Range.after e r).covers (Pos.after e p) = r.covers p := by
  unfold Range.covers Range.after
  dsimp only
  rw [after_le, after_le]

theorem any_after {r : Option Range} :
    (r.map (Range.after e)).any (·.covers (Pos.after e p)) = r.any (·.covers p) := by
  cases r with
  | none => rfl
  | some r => exact after_covers

theorem highlights_moved (hc : ClosedText u cs void pre front) (hb : PutBehind pre e d d')
    (h : parse u cs void d.text = .ok roots) (h' : parse u cs void d'.text = .ok roots') :
    findDocumentHighlights u cs d' (Pos.after e p) roots' =
      (findDocumentHighlights u cs d p roots).map (List.map (Range.after e)) := by
  unfold findDocumentHighlights
  rw [hb.off, found_behind hc hb h h']
  cases hn : findNodeAt roots (d.offsetAt p) with
  | none => rfl
  | some r =>
    obtain ⟨⟨tag, st, sp, ch, cl, ste, ets, at_⟩, ps⟩ := r
    simp only [Option.map_some, shift_tag, shift_start, shift_endTagStart, Node.isSelfClosing, Option.isNone_map]
    split
    · rfl
    rw [tagNameRange_behind hb]
    cases getTagNameRange u cs d .StartTag st with
    | error x => rfl
    | ok a =>
      cases ets with
      | none =>
        simp only [Except.map, bind, Except.bind, Option.isNone_none, if_true, any_after, Option.any_none]
        split
        · cases a <;> rfl
        · rfl
      | some z =>
        simp only [Except.map, bind, Except.bind, Option.isNone_some, Option.map_some, unwrap, Bool.false_eq_true, if_false]
        rw [tagNameRange_behind hb]
        cases getTagNameRange u cs d .EndTag z with
        | error x => rfl
        | ok b =>
          simp only [Except.map, any_after]
          split
          · cases a <;> cases b <;> rfl
          · rfl

/-! ### Symbols -/

theorem attrGet_shift {k : Nat} {m : List (Str × Attr)} {a : Str} :
    (attrGet (shiftAttrs k m) a).bind (·.value) = (attrGet m a).bind (·.value) := by
  induction m with
  | nil => rfl
  | cons x m ih =>
    simp only [shiftAttrs, List.map_cons, attrGet] at ih ⊢
    split
    · rfl
    · exact ih

theorem name_shift {k : Nat} {t : Option Str} {m : List (Str × Attr)} : nodeToName t (shiftAttrs k m) = nodeToName t m := by
  unfold nodeToName
  have : (shiftAttrs k m).isEmpty = m.isEmpty := by cases m <;> rfl
  simp only [this, attrGet_shift]

theorem afterAll_append (l r : List Symbol) : Symbol.afterAll e (l ++ r) = Symbol.afterAll e l ++ Symbol.afterAll e r := by
  induction l with
  | nil => rfl
  | cons s l ih => simp only [List.cons_append, Symbol.afterAll, ih]

mutual
theorem symbols_node (hb : PutBehind pre e d d') : ∀ (n : Node) (acc : List Symbol),
    provideSymbols d' (n.shift pre.length) (Symbol.afterAll e acc) = Symbol.afterAll e (provideSymbols d n acc)
  | ⟨tag, start, stop, children, closed, ste, ets, attributes⟩, acc => by
    have := symbols_nodes hb children []
    simp only [Symbol.afterAll] at this
    simp only [Node.shift, provideSymbols, name_shift, this, hb.range, afterAll_append, Symbol.afterAll, Symbol.after]
theorem symbols_nodes (hb : PutBehind pre e d d') : ∀ (l : List Node) (acc : List Symbol),
    provideSymbolsAll d' (Node.shifts pre.length l) (Symbol.afterAll e acc) = Symbol.afterAll e (provideSymbolsAll d l acc)
  | [], _ => rfl
  | n :: l, acc => by
    simp only [Node.shifts, provideSymbolsAll]
    rw [symbols_node hb n, symbols_nodes hb l]
end

theorem symbols_moved (hc : ClosedText u cs void pre front) (hb : PutBehind pre e d d')
    (h : parse u cs void d.text = .ok roots) (h' : parse u cs void d'.text = .ok roots') :
    findDocumentSymbols2 d' roots' = findDocumentSymbols2 d' front ++ Symbol.afterAll e (findDocumentSymbols2 d roots) := by
  rw [roots_behind hc hb h h']
  have := symbols_nodes hb roots []
  simp only [Symbol.afterAll, provideSymbolsAll_eq, List.nil_append] at this
  simp only [symbols2_eq, List.map_append, this]

mutual
theorem walk_after : ∀ (s : Symbol) (parent : Option Str) (acc : List FlatSymbol),
    walk (Symbol.after e s) parent (acc.map (FlatSymbol.after e)) = (walk s parent acc).map (FlatSymbol.after e)
  | .mk name range selection children, parent, acc => by
    have := walkAll_after children (some name) (acc ++ [⟨name, range, parent⟩])
    rw [List.map_append] at this
    exact this
theorem walkAll_after : ∀ (l : List Symbol) (parent : Option Str) (acc : List FlatSymbol),
    walkAll (Symbol.afterAll e l) parent (acc.map (FlatSymbol.after e)) = (walkAll l parent acc).map (FlatSymbol.after e)
  | [], _, _ => rfl
  | s :: l, parent, acc => by
    simp only [Symbol.afterAll, walkAll]
    rw [walk_after s, walkAll_after l]
end

theorem flat_moved (hc : ClosedText u cs void pre front) (hb : PutBehind pre e d d')
    (h : parse u cs void d.text = .ok roots) (h' : parse u cs void d'.text = .ok roots') :
    findDocumentSymbols d' roots' = findDocumentSymbols d' front ++ (findDocumentSymbols d roots).map (FlatSymbol.after e) := by
  have h1 : findDocumentSymbols d' (Node.shifts pre.length roots) = (findDocumentSymbols d roots).map (FlatSymbol.after e) := by
    have := symbols_nodes hb roots []
    simp only [Symbol.afterAll] at this
    unfold findDocumentSymbols findDocumentSymbols2
    rw [this]
    exact walkAll_after _ none []
  rw [← h1, roots_behind hc hb h h', symbols_eq, symbols_eq, symbols_eq, ← List.map_append]
  congr 1
  generalize Node.shifts pre.length roots = l
  clear h h' hc h1
  induction front with
  | nil => rfl
  | cons n t ih => simp only [List.cons_append, preorderAll, ih, List.append_assoc]

/-! ### Hover -/

theorem scanWhile_behind {c : Cfg} {q q' : Tok → Bool} (hq : ∀ t, q' (t.shift pre.length) = q t) {f : Nat} {s : Sc} :
    scanWhile (c.behind pre) q' f (s.shift pre.length) = (scanWhile c q f s).map (Sc.shift pre.length) := by
  induction f generalizing s with
  | zero => rfl
  | succ f ih =>
    unfold scanWhile
    rw [show scan (c.behind pre) (s.shift pre.length) = _ from scan_shift]
    cases scan c s with
    | error e => rfl
    | ok s1 =>
      change (if s1.tokenType ≠ .EOS ∧ q' (s1.tok.shift pre.length) = true then _ else _) =
        Except.map _ (if s1.tokenType ≠ .EOS ∧ q s1.tok = true then _ else _)
      rw [hq]
      split
      · exact ih
      · rfl

theorem scanWhile_fuel {c : Cfg} {q : Tok → Bool} {f : Nat} {s : Sc} (hf : mu c s < f) (g : Nat) :
    scanWhile c q (f + g) s = scanWhile c q f s := by
  induction f generalizing s with
  | zero => omega
  | succ f ih =>
    have e : f + 1 + g = (f + g) + 1 := by omega
    rw [e]
    unfold scanWhile
    cases h1 : scan c s with
    | error e => rfl
    | ok s1 =>
      simp only [bind, Except.bind]
      split
      · rename_i hne
        have := (scan_step h1).mu_lt hne.1
        exact ih (by omega)
      · rfl

theorem attrBefore_behind {c : Cfg} {v : Nat} {f : Nat} {prev : Option Str} {s : Sc} :
    attrBefore (c.behind pre) (v + pre.length) f prev (s.shift pre.length) = attrBefore c v f prev s := by
  induction f generalizing prev s with
  | zero => rfl
  | succ f ih =>
    unfold attrBefore
    rw [show scan (c.behind pre) (s.shift pre.length) = _ from scan_shift]
    change (if s.tokenType ≠ .EOS ∧ s.pos + pre.length ≤ v + pre.length then _ else _) = if s.tokenType ≠ .EOS ∧ s.pos ≤ v then _ else _
    by_cases hq : s.tokenType ≠ .EOS ∧ s.pos ≤ v
    · rw [if_pos hq, if_pos ⟨hq.1, by omega⟩]
      cases scan c s with
      | error e => rfl
      | ok s1 =>
        simp only [Except.map, bind, Except.bind]
        rw [show (Sc.shift pre.length s1).tokenType = s1.tokenType from rfl, tokenText_behind (s := s1) rfl]
        by_cases ha : s1.tokenType = .AttributeName
        · rw [if_pos ha]
          cases tokenText c s1 with
          | error e => rfl
          | ok t => exact ih
        · rw [if_neg ha]
          exact ih
    · rw [if_neg hq, if_neg (fun h => hq ⟨h.1, by omega⟩)]

theorem attrBefore_fuel {c : Cfg} {v : Nat} {f : Nat} {prev : Option Str} {s : Sc}
    (hf : (s.tokenType = .EOS ∧ 0 < f) ∨ mu c s + 1 < f) (g : Nat) :
    attrBefore c v (f + g) prev s = attrBefore c v f prev s := by
  induction f generalizing prev s with
  | zero => omega
  | succ f ih =>
    have e : f + 1 + g = (f + g) + 1 := by omega
    rw [e]
    unfold attrBefore
    by_cases hq : s.tokenType ≠ .EOS ∧ s.pos ≤ v
    · rw [if_pos hq, if_pos hq]
      have hf := hf.resolve_left fun h => hq.1 h.1
      cases h1 : scan c s with
      | error e => rfl
      | ok s1 =>
        have hn : (s1.tokenType = .EOS ∧ 0 < f) ∨ mu c s1 + 1 < f := by
          by_cases he : s1.tokenType = .EOS
          · exact .inl ⟨he, by omega⟩
          · have := (scan_step h1).mu_lt he
            exact .inr (by omega)
        simp only [bind, Except.bind]
        by_cases ha : s1.tokenType = .AttributeName
        · rw [if_pos ha]
          cases tokenText c s1 with
          | error e => rfl
          | ok t => exact ih hn
        · rw [if_neg ha]
          exact ih hn
    · rw [if_neg hq, if_neg hq]

section
variable {env : HoverEnv}

theorem tokenRange_behind {t : TT} {a o : Nat} (hb : PutBehind pre e d d') :
    env.tokenRange d' t (a + pre.length) (o + pre.length) = (env.tokenRange d t a o).map (Option.map (Range.after e)) := by
  unfold HoverEnv.tokenRange
  have hc : env.cfg d' = (env.cfg d).behind pre := by unfold HoverEnv.cfg; rw [hb.text]; rfl
  have hl : 2 * d'.text.length + 1 = 2 * d.text.length + 1 + 2 * pre.length := by rw [hb.text, List.length_append]; omega
  have h2 : ∀ q f, scanWhile ((env.cfg d).behind pre) q (f + 1) (.new (a + pre.length) .WithinContent) =
      scanWhile ((env.cfg d).behind pre) q (f + 1) ((Sc.new a .WithinContent).shift pre.length) := by
    intro q f
    rw [scanWhile, scan_new, ← scanWhile]
  rw [hc, h2, hl, scanWhile_behind (c := env.cfg d)
    (q := fun x => decide (x.stop < o ∨ (x.stop = o ∧ x.type ≠ t))) (by
      intro x
      rw [decide_eq_decide]
      show x.stop + pre.length < o + pre.length ∨ (x.stop + pre.length = o + pre.length ∧ x.type ≠ t) ↔ _
      rw [Nat.add_lt_add_iff_right, Nat.add_right_cancel_iff]),
    scanWhile_fuel (c := env.cfg d) (show mu (env.cfg d) _ < 2 * d.text.length + 1 from mu_new)]
  cases scanWhile (env.cfg d) (fun x => decide (x.stop < o ∨ (x.stop = o ∧ x.type ≠ t))) (2 * d.text.length + 1)
      (.new a .WithinContent) with
  | error x => rfl
  | ok s =>
    change (if s.tokenType = t ∧ o + pre.length ≤ s.pos + pre.length then
        Except.ok (some (⟨d'.posAt (s.tokenOffset + pre.length), d'.posAt (s.pos + pre.length)⟩ : Range)) else _) =
      Except.map _ (if s.tokenType = t ∧ o ≤ s.pos then _ else _)
    simp only [hb.range, Nat.add_le_add_iff_right]
    split <;> rfl

theorem scanAttr_behind {a v : Nat} (hb : PutBehind pre e d d') :
    env.scanAttr d' (a + pre.length) (v + pre.length) = env.scanAttr d a v := by
  unfold HoverEnv.scanAttr
  have hc : env.cfg d' = (env.cfg d).behind pre := by unfold HoverEnv.cfg; rw [hb.text]; rfl
  have hl : 2 * d'.text.length + 1 = 2 * d.text.length + 1 + 2 * pre.length := by rw [hb.text, List.length_append]; omega
  rw [hc, scan_new, show scan ((env.cfg d).behind pre) ((Sc.new a .WithinContent).shift pre.length) = _ from scan_shift]
  cases h1 : scan (env.cfg d) (.new a .WithinContent) with
  | error x => rfl
  | ok s =>
    simp only [Except.map, bind, Except.bind]
    rw [attrBefore_behind, hl, attrBefore_fuel]
    by_cases he : s.tokenType = .EOS
    · exact .inl ⟨he, by omega⟩
    · have := (scan_step h1).mu_lt he
      have hm : mu (env.cfg d) (.new a .WithinContent) < 2 * (env.cfg d).src.length + 1 := mu_new
      rw [show (env.cfg d).src = d.text from rfl] at hm
      exact .inr (by omega)

theorem content_behind {r : Range} (hb : PutBehind pre e d d') : d'.content (Range.after e r) = d.content r := by
  unfold TextDoc.content Range.after
  dsimp only
  rw [hb.off, hb.off, hb.text, shift_slice]

theorem tagHover1_after {t : Str} {r : Range} {l : List TagData} : ∀ {a : Option Hover},
    env.tagHover1 t (Range.after e r) l (a.map (Hover.after e)) = (env.tagHover1 t r l a).map (Hover.after e) := by
  induction l with
  | nil => intro a; rfl
  | cons x l ih =>
    intro a
    simp only [HoverEnv.tagHover1]
    rw [← ih]
    split <;> rfl

theorem tagHover_after {t : Str} {r : Range} {l : List Provider} :
    env.tagHover t (Range.after e r) l = (env.tagHover t r l).map (Hover.after e) := by
  induction l with
  | nil => rfl
  | cons x l ih =>
    have := tagHover1_after (e := e) (env := env) (t := t) (r := r) (l := x.provideTags) (a := none)
    simp only [Option.map_none] at this
    simp only [HoverEnv.tagHover, this]
    cases env.tagHover1 t r x.provideTags none with
    | none => exact ih
    | some y => rfl

theorem attrHover1_after {t : Str} {r : Range} {l : List AttributeData} : ∀ {a : Option Hover},
    env.attrHover1 t (Range.after e r) l (a.map (Hover.after e)) = (env.attrHover1 t r l a).map (Hover.after e) := by
  induction l with
  | nil => intro a; rfl
  | cons x l ih =>
    intro a
    simp only [HoverEnv.attrHover1]
    rw [← ih]
    split
    · cases generateDocumentation x.description x.references env.setting <;> rfl
    · rfl

theorem attrHover_after {t a : Str} {r : Range} {o o' : Nat} {l : List Provider}
    (hl : ∀ p ∈ l, p.provideAttributes t o' = p.provideAttributes t o) :
    env.attrHover t a (Range.after e r) o' l = (env.attrHover t a r o l).map (Hover.after e) := by
  induction l with
  | nil => rfl
  | cons x l ih =>
    have := attrHover1_after (e := e) (env := env) (t := a) (r := r) (l := x.provideAttributes t o) (a := none)
    simp only [Option.map_none] at this
    simp only [HoverEnv.attrHover, hl x (by simp), this]
    cases env.attrHover1 a r (x.provideAttributes t o) none with
    | none => exact ih fun p hp => hl p (by simp [hp])
    | some y => rfl

theorem valueHover1_after {v : Str} {r : Range} {l : List ValueData} :
    env.valueHover1 v (Range.after e r) l = (env.valueHover1 v r l).map (Hover.after e) := by
  induction l with
  | nil => rfl
  | cons x l ih =>
    simp only [HoverEnv.valueHover1]
    split
    · cases generateDocumentation x.description x.references env.setting with
      | none => exact ih
      | some y => rfl
    · exact ih

theorem valueHover_after {t a v : Str} {r : Range} {l : List Provider} :
    env.valueHover t a v (Range.after e r) l = (env.valueHover t a v r l).map (Hover.after e) := by
  induction l with
  | nil => rfl
  | cons x l ih =>
    simp only [HoverEnv.valueHover, valueHover1_after]
    cases env.valueHover1 v r (x.provideValues t a) with
    | none => exact ih
    | some y => rfl

theorem entityHover1_after {t : Str} {r : Range} {l : HMap Str} :
    env.entityHover1 t (Range.after e r) l = (env.entityHover1 t r l).map (Hover.after e) := by
  induction l with
  | nil => rfl
  | cons x l ih =>
    obtain ⟨k, v⟩ := x
    simp only [HoverEnv.entityHover1]
    split
    · rfl
    · exact ih

theorem letter_behind {x : Str} {i : Nat} : isLetterOrDigit (pre ++ x) (i + pre.length) = isLetterOrDigit x i := by
  unfold isLetterOrDigit
  rw [List.getElem?_append_right (by omega), Nat.add_sub_cancel]

theorem letter_last {x : Str} (hp : pre.getLast? = some 62) {j : Nat} (hj : j + 1 = pre.length) :
    isLetterOrDigit (pre ++ x) j = false := by
  have h1 : (pre ++ x)[j]? = some 62 := by
    rw [List.getElem?_append_left (by omega), show j = pre.length - 1 by omega, ← List.getLast?_eq_getElem?]; exact hp
  unfold isLetterOrDigit
  rw [h1]; rfl

theorem lettersBefore_behind {x : Str} (hp : pre.getLast? = some 62) : ∀ o,
    lettersBefore (pre ++ x) (o + pre.length) = lettersBefore x o
  | 0 => by
    rw [Nat.zero_add]
    cases hl : pre.length with
    | zero => rfl
    | succ j =>
      show (if isLetterOrDigit (pre ++ x) j then 1 + lettersBefore (pre ++ x) j else 0) = 0
      rw [letter_last hp (by omega)]
      rfl
  | o + 1 => by
    rw [show o + 1 + pre.length = (o + pre.length) + 1 by omega, lettersBefore, lettersBefore, letter_behind, lettersBefore_behind hp o]

theorem lettersFrom_behind {x : Str} : ∀ f k, lettersFrom (pre ++ x) f (k + pre.length) = lettersFrom x f k
  | 0, _ => rfl
  | f + 1, k => by
    rw [lettersFrom, lettersFrom, letter_behind, show k + pre.length + 1 = (k + 1) + pre.length by omega, lettersFrom_behind f]

theorem lettersFrom_fuel {x : Str} (g : Nat) : ∀ f k, x.length ≤ f + k → lettersFrom x (f + g) k = lettersFrom x f k
  | 0, k, h => by
    cases g with
    | zero => rfl
    | succ g =>
      rw [Nat.zero_add]
      show (if isLetterOrDigit x k then 1 + lettersFrom x g (k + 1) else 0) = 0
      unfold isLetterOrDigit
      rw [List.getElem?_eq_none (by omega)]
      rfl
  | f + 1, k, h => by
    rw [show f + 1 + g = (f + g) + 1 by omega, lettersFrom, lettersFrom, lettersFrom_fuel g f (k + 1) (by omega)]

theorem lettersFrom_all {x : Str} {k : Nat} :
    lettersFrom (pre ++ x) (pre ++ x).length (k + pre.length) = lettersFrom x x.length k := by
  rw [lettersFrom_behind, List.length_append, Nat.add_comm pre.length, lettersFrom_fuel _ _ _ (by omega)]

theorem lettersBefore_le {x : Str} : ∀ o, lettersBefore x o ≤ o
  | 0 => Nat.le_refl _
  | o + 1 => by
    have := lettersBefore_le (x := x) o
    rw [lettersBefore]; split <;> omega

theorem entityRange_behind {o : Nat} {r : Option Range} (hp : pre.getLast? = some 62) (hb : PutBehind pre e d d')
    (h : getEntityRange d p o = .ok r) :
    getEntityRange d' (Pos.after e p) (o + pre.length) = .ok (r.map (Range.after e)) := by
  unfold getEntityRange at h ⊢
  dsimp only at h ⊢
  have hle := lettersBefore_le (x := d.text) o
  rw [hb.text, lettersBefore_behind hp, show o + pre.length - lettersBefore d.text o = (o - lettersBefore d.text o) + pre.length by omega,
    lettersFrom_all]
  generalize lettersBefore d.text o = m at *
  generalize o - m = k at *
  generalize lettersFrom d.text d.text.length k = n at *
  have h1 : (k + pre.length > 0 ∧ (pre ++ d.text)[k + pre.length - 1]? = some 38) ↔ (k > 0 ∧ d.text[k - 1]? = some 38) := by
    have hl : 0 < pre.length := by cases pre with | nil => cases hp | cons => simp
    cases k with
    | zero =>
      rw [Nat.zero_add, List.getElem?_append_left (by omega), ← List.getLast?_eq_getElem?, hp]
      simp
    | succ k =>
      rw [show k + 1 + pre.length - 1 = k + pre.length by omega, List.getElem?_append_right (by omega), Nat.add_sub_cancel]
      exact ⟨fun h => ⟨by omega, h.2⟩, fun h => ⟨by omega, h.2⟩⟩
  have h2 : (pre ++ d.text)[k + pre.length + n]? = d.text[k + n]? := by
    rw [show k + pre.length + n = (k + n) + pre.length by omega, List.getElem?_append_right (by omega), Nat.add_sub_cancel]
  simp only [h1, h2]
  cases hs : subU p.character m with
  | error x => rw [hs] at h; cases h
  | ok a =>
    have ha : m ≤ p.character ∧ a = p.character - m := by
      unfold subU at hs
      split at hs
      · cases hs; exact ⟨by assumption, rfl⟩
      · cases hs
    obtain ⟨hm, rfl⟩ := ha
    have hs' : subU (Pos.after e p).character m =
        .ok (if p.line = 0 then e.character + (p.character - m) else p.character - m) := by
      unfold subU Pos.after
      dsimp only
      by_cases hl : p.line = 0
      · rw [if_pos hl, if_pos hl, if_pos (by omega)]; congr 1; omega
      · rw [if_neg hl, if_neg hl, if_pos hm]
    rw [hs] at h
    rw [hs']
    simp only [bind, Except.bind] at h ⊢
    have h3 : ∀ j, (⟨⟨(Pos.after e p).line, if p.line = 0 then e.character + (p.character - m) else p.character - m⟩,
        ⟨(Pos.after e p).line, (if p.line = 0 then e.character + (p.character - m) else p.character - m) + j⟩⟩ : Range) =
        Range.after e ⟨⟨p.line, p.character - m⟩, ⟨p.line, p.character - m + j⟩⟩ := by
      intro j
      unfold Range.after Pos.after
      dsimp only
      split <;> simp [Nat.add_assoc]
    have h4 := h3 (n + 1)
    rw [← Nat.add_assoc, ← Nat.add_assoc] at h4
    rw [h3, h4]
    split at h
    · rename_i hq
      rw [if_pos hq]
      split at h
      · rename_i hr
        rw [if_pos hr]; cases h; rfl
      · rename_i hr
        rw [if_neg hr]; cases h; rfl
    · rename_i hq
      rw [if_neg hq]; cases h; rfl

theorem bytesIn_behind {x : Str} {a b : Nat} : bytesIn (pre ++ x) (a + pre.length) (b + pre.length) = bytesIn x a b := by
  unfold bytesIn
  rw [List.take_append, List.take_of_length_le (by omega), Nat.add_sub_cancel, Nat.add_comm a, List.drop_append,
    List.drop_eq_nil_of_le (by omega), Nat.add_sub_cancel_left, List.nil_append]

theorem entityHover_behind {o : Nat} {r : Range} {a : Option Hover} (hp : pre.getLast? = some 62) (hb : PutBehind pre e d d')
    (h : env.entityHover d.text r o = .ok a) :
    env.entityHover d'.text (Range.after e r) (o + pre.length) = .ok (a.map (Hover.after e)) := by
  have hl : 0 < pre.length := by cases pre with | nil => cases hp | cons => simp
  have hle := lettersBefore_le (x := d.text) o
  unfold HoverEnv.entityHover filterEntity at h ⊢
  dsimp only at h ⊢
  rw [hb.text, lettersBefore_behind hp, if_neg (by omega),
    show o + pre.length - lettersBefore d.text o = (o - lettersBefore d.text o) + pre.length by omega, lettersFrom_all,
    show ∀ k n, k + pre.length + n = k + n + pre.length by intros; omega, bytesIn_behind]
  split at h
  · cases h
  · simp only [bind, Except.bind] at h ⊢
    cases h
    rw [entityHover1_after]

theorem hoverValue_behind {n : Node} {t : Str} {o : Nat} {a : Option Hover} (he : env.participants = []) (hb : PutBehind pre e d d')
    (h : env.hoverValue d n t o = .ok a) :
    env.hoverValue d' (n.shift pre.length) t (o + pre.length) = .ok (a.map (Hover.after e)) := by
  unfold HoverEnv.hoverValue HoverEnv.attrValueHover at h ⊢
  rw [shift_start, tokenRange_behind hb]
  simp only [he, firstAnswer] at h ⊢
  cases h1 : env.tokenRange d .AttributeValue n.start o with
  | error x => rw [h1] at h; cases h
  | ok r =>
    rw [h1] at h
    cases r with
    | none => simp only [Except.map, bind, Except.bind, Option.map_none] at h ⊢; cases h; rfl
    | some r =>
      simp only [Except.map, bind, Except.bind, Option.map_some] at h ⊢
      rw [content_behind hb, show (Range.after e r).start = Pos.after e r.start from rfl, hb.off, scanAttr_behind hb]
      cases h2 : d.content r with
      | error x => rw [h2] at h; cases h
      | ok c =>
        rw [h2] at h
        cases h3 : env.scanAttr d n.start (d.offsetAt r.start) with
        | error x => rw [h3] at h; cases h
        | ok y =>
          rw [h3] at h
          cases y with
          | none => cases h; rfl
          | some y => simp only at h ⊢; cases h; rw [valueHover_after]

theorem hoverInside_behind {n : Node} {t : Str} {o : Nat} {a : Option Hover} (he : env.participants = [])
    (hv : ∀ p ∈ env.providers, ∀ t i j, p.provideAttributes t i = p.provideAttributes t j)
    (hp : pre.getLast? = some 62) (hb : PutBehind pre e d d') (h : env.hoverInside d p n t o = .ok a) :
    env.hoverInside d' (Pos.after e p) (n.shift pre.length) t (o + pre.length) = .ok (a.map (Hover.after e)) := by
  unfold HoverEnv.hoverInside at h ⊢
  rw [shift_start, tokenRange_behind hb, tokenRange_behind hb]
  cases h1 : env.tokenRange d .StartTag n.start o with
  | error x => rw [h1] at h; cases h
  | ok r =>
    rw [h1] at h
    cases r with
    | some r => simp only [Except.map, bind, Except.bind, Option.map_some] at h ⊢; cases h; rw [tagHover_after]
    | none =>
      simp only [Except.map, bind, Except.bind, Option.map_none] at h ⊢
      cases h2 : env.tokenRange d .AttributeName n.start o with
      | error x => rw [h2] at h; cases h
      | ok r =>
        rw [h2] at h
        cases r with
        | some r =>
          simp only [Option.map_some] at h ⊢
          rw [content_behind hb]
          cases h3 : d.content r with
          | error x => rw [h3] at h; cases h
          | ok c =>
            rw [h3] at h
            simp only at h ⊢
            cases h
            rw [attrHover_after (o := o)]
            intro q hq
            exact hv q (List.mem_filter.1 hq).1 _ _ _
        | none =>
          simp only [Option.map_none] at h ⊢
          cases h3 : getEntityRange d p o with
          | error x => rw [h3] at h; cases h
          | ok r =>
            rw [h3] at h
            rw [entityRange_behind hp hb h3]
            cases r with
            | some r => exact entityHover_behind hp hb h
            | none => exact hoverValue_behind he hb h

theorem hover_moved {a : Option Hover} (hc : ClosedText u cs void pre front) (hb : PutBehind pre e d d')
    (h : parse u cs void d.text = .ok roots) (h' : parse u cs void d'.text = .ok roots') (he : env.participants = [])
    (hv : ∀ p ∈ env.providers, ∀ t i j, p.provideAttributes t i = p.provideAttributes t j)
    (ha : doHover env d p roots = .ok a) : doHover env d' (Pos.after e p) roots' = .ok (a.map (Hover.after e)) := by
  unfold doHover at ha ⊢
  dsimp only at ha ⊢
  rw [hb.off, found_behind hc hb h h']
  cases hn : findNodeAt roots (d.offsetAt p) with
  | none => rw [hn] at ha; cases ha; rfl
  | some r =>
    rw [hn] at ha
    obtain ⟨n, ps⟩ := r
    simp only [Option.map_some, shift_tag, shift_endTagStart] at ha ⊢
    cases ht : n.tag with
    | none => rw [ht] at ha; cases ha; rfl
    | some t =>
      rw [ht] at ha
      cases hz : n.endTagStart with
      | none =>
        rw [hz] at ha
        exact hoverInside_behind he hv hc.last_byte hb ha
      | some z =>
        rw [hz] at ha
        simp only [Option.map_some] at ha ⊢
        by_cases hq : d.offsetAt p ≥ z
        · rw [if_pos hq] at ha
          rw [if_pos (by omega), tokenRange_behind hb]
          cases h1 : env.tokenRange d .EndTag z (d.offsetAt p) with
          | error x => rw [h1] at ha; cases ha
          | ok r =>
            rw [h1] at ha
            cases r with
            | none => simp only [Except.map, bind, Except.bind, Option.map_none] at ha ⊢; cases ha; rfl
            | some r => simp only [Except.map, bind, Except.bind, Option.map_some] at ha ⊢; cases ha; rw [tagHover_after]
        · rw [if_neg hq] at ha
          rw [if_neg (by omega)]
          exact hoverInside_behind he hv hc.last_byte hb ha

end

end

end Html
