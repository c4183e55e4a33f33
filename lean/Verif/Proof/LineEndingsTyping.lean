import Verif.Proof.LineEndingsHover
import Verif.Proof.TypingMoved

/-! # Closing tags and quotes while typing, with other line endings -/

namespace Html
open Spec

/-! ### The node in front of the cursor -/

theorem firstIdxB_crNodes (a : Str) (o : Nat) (l : List Node) :
    firstIdx (fun ch => decide (crOff a o ≤ ch.start)) (crNodes a l) = firstIdx (fun ch => decide (o ≤ ch.start)) l := by
  induction l with
  | nil => rfl
  | cons n l ih =>
    have hn : (crNode a n).start = crOff a n.start := by rw [crNode_eq]
    simp only [crNodes, firstIdx, hn, ih, crOff_le]

theorem lastChild_crNode (a : Str) (n : Node) :
    ((crNode a n).lastChild.any fun l => l.stop == (crNode a n).stop) = (n.lastChild.any fun l => l.stop == n.stop) := by
  unfold Node.lastChild
  rw [crNode_eq]
  dsimp only
  rw [crNodes_map, List.getLast?_map]
  cases n.children.getLast? with
  | none => rfl
  | some m =>
    have hm : (crNode a m).stop = crOff a m.stop := by rw [crNode_eq]
    have hi : (crOff a m.stop = crOff a n.stop) = (m.stop = n.stop) := propext crOff_inj
    show decide ((crNode a m).stop = crOff a n.stop) = decide (m.stop = n.stop)
    simp only [hm, hi]

mutual
theorem findBefore_crNode (a : Str) (o : Nat) :
    ∀ n : Node, Node.findBefore (crOff a o) (crNode a n) = crFound a (Node.findBefore o n)
  | ⟨tag, start, stop, children, closed, ste, ets, attrs⟩ => by
    simp only [crNode, Node.findBefore]
    rw [firstIdxB_crNodes, findBeforeNth_crNodes a o _ children]
    split
    · cases Node.findBeforeNth o (firstIdx (fun ch => decide (o ≤ ch.start)) children - 1) children with
      | none => rfl
      | some x => rfl
    · rfl
theorem findBeforeNth_crNodes (a : Str) (o : Nat) : ∀ (k : Nat) (l : List Node),
    Node.findBeforeNth (crOff a o) k (crNodes a l) = (Node.findBeforeNth o k l).map (crFound a)
  | _, [] => by simp only [crNodes, Node.findBeforeNth]; rfl
  | 0, n :: l => by
    have h1 : (crNode a n).start = crOff a n.start := by rw [crNode_eq]
    have h2 : (crNode a n).stop = crOff a n.stop := by rw [crNode_eq]
    have h3 := lastChild_crNode a n
    simp only [crNodes, Node.findBeforeNth, h3]
    simp only [h1, h2, findBefore_crNode a o n, crOff_lt, gt_iff_lt]
    split
    · split
      · rfl
      · split <;> rfl
    · rfl
  | k + 1, n :: l => by
    simp only [crNodes, Node.findBeforeNth, findBeforeNth_crNodes a o k l]
end

theorem findNodeBefore_crNodes (a : Str) (o : Nat) (l : List Node) :
    findNodeBefore (crNodes a l) (crOff a o) = (findNodeBefore l o).map (crFound a) := by
  unfold findNodeBefore
  simp only [firstIdxB_crNodes, findBeforeNth_crNodes]
  split <;> rfl

theorem beforeEnd_crNode (a : Str) (n : Node) (o : Nat) : beforeEnd (crNode a n) (crOff a o) = beforeEnd n o := by
  unfold beforeEnd
  rw [crNode_eq]
  dsimp only
  cases n.endTagStart <;> simp [crOff_lt, crOff_le]

theorem isOpen_crNode (a : Str) (n : Node) (o : Nat) : isOpen (crOff a o) (crNode a n) = isOpen o n := by
  unfold isOpen
  rw [crNode_eq]
  dsimp only
  cases n.endTagStart <;> simp [crOff_lt]

theorem firstUp_crNode (a : Str) (n : Node) (ps : List Node) (o : Nat) :
    firstUp (isOpen (crOff a o)) (crNode a n) (crNodes a ps) = (firstUp (isOpen o) n ps).map (crNode a) := by
  unfold firstUp
  rw [crNodes_map, ← List.map_reverse, ← List.map_cons, List.find?_map]
  congr 1
  congr 1
  funext m
  exact isOpen_crNode a m o

/-! ### The bytes around the cursor -/

theorem getStr_byte {s : Str} {o x : Nat} : getStr s o (o + 1) = some [x] ↔
    s[o]? = some x ∧ isBoundary s o = true ∧ isBoundary s (o + 1) = true := by
  unfold getStr
  constructor
  · intro h
    cases hs : sliceStr s o (o + 1) with
    | error e => rw [hs] at h; cases h
    | ok r =>
      rw [hs] at h
      cases h
      obtain ⟨_, _, b1, b2, hr⟩ := sliceStr_ok hs
      refine ⟨?_, b1, b2⟩
      unfold bytesIn at hr
      have h0 : ((s.take (o + 1)).drop o)[0]? = some x := by rw [← hr]; rfl
      rw [List.getElem?_drop, List.getElem?_take, if_pos (by omega)] at h0
      exact h0
  · rintro ⟨h, b1, b2⟩
    have hlt : o < s.length := (List.getElem?_eq_some_iff.1 h).1
    unfold sliceStr
    rw [if_pos (by simp only [Bool.and_eq_true, decide_eq_true_eq]; exact ⟨⟨⟨by omega, by omega⟩, b1⟩, b2⟩)]
    show some _ = _
    congr 1
    rw [List.drop_take, show o + 1 - o = 1 by omega]
    have h0 : (s.drop o)[0]? = some x := by rw [List.getElem?_drop]; exact h
    cases hd : s.drop o with
    | nil => rw [hd] at h0; cases h0
    | cons y t => rw [hd] at h0; cases h0; rfl

theorem getStr_at {a : Str} {o x : Nat} (h10 : x ≠ 10) (h13 : x ≠ 13) :
    getStr (crlf a) (crOff a o) (crOff a o + 1) = some [x] ↔ getStr a o (o + 1) = some [x] := by
  rw [getStr_byte, getStr_byte, at_crlf, crlf_boundary]
  by_cases h : a[o]? = some x
  · have hs : crOff a o + 1 = crOff a (o + 1) := (crOff_succ (by rw [h]; simp [h10])).symm
    rw [hs, crlf_boundary, h]
    simp [h10]
  · have h' : (a[o]?).map (fun b => if b = 10 then 13 else b) ≠ some x := by
      cases hb : a[o]? with
      | none => simp
      | some b =>
        rw [hb] at h
        simp only [Option.map_some, ne_eq, Option.some.injEq]
        split
        · omega
        · exact fun hx => h (by rw [hx])
    exact ⟨fun hx => absurd hx.1 h', fun hx => absurd hx.1 h⟩

theorem getStr_end {a : Str} {o x : Nat} (h10 : x ≠ 10) (h0 : 0 < o) (ho : o ≤ a.length) :
    getStr (crlf a) (crOff a o - 1) (crOff a o) = some [x] ↔ getStr a (o - 1) o = some [x] := by
  obtain ⟨k, rfl⟩ : ∃ k, o = k + 1 := ⟨o - 1, by omega⟩
  have hpos : 0 < crOff a (k + 1) := by
    have := (crOff_lt (a := a) (o := 0) (p := k + 1)).2 (by omega)
    omega
  have hl := crlf_last a h0 ho
  obtain ⟨j, hj⟩ : ∃ j, crOff a (k + 1) = j + 1 := ⟨crOff a (k + 1) - 1, by omega⟩
  have hb := crlf_boundary a (k + 1)
  rw [hj, Nat.add_sub_cancel, Nat.add_sub_cancel] at hl
  rw [hj] at hb
  rw [hj, Nat.add_sub_cancel, Nat.add_sub_cancel, getStr_byte, getStr_byte, hl, hb]
  by_cases h : a[k]? = some x
  · have hs : j = crOff a k := by
      have := crOff_succ (a := a) (o := k) (by rw [h]; simp [h10])
      omega
    rw [hs, crlf_boundary]
  · exact ⟨fun hx => absurd hx.1 h, fun hx => absurd hx.1 h⟩

/-! ### The loops -/

theorem ln_endsAt {c c' : Cfg} (h : Lines c c') (t : TT) (o f : Nat) (s : Sc)
    (l : Option Str) (hl : s.pos < c.src.length → s.lastType.isSome = l.isSome) :
    endsAt c' t (crOff c.src o) f (crS c s l) = endsAt c t o f s := by
  induction f generalizing s l with
  | zero => rfl
  | succ f ih =>
    unfold endsAt
    show (if s.tokenType ≠ .EOS ∧ crOff c.src s.pos ≤ crOff c.src o then
      (if s.tokenType = t ∧ crOff c.src s.pos = crOff c.src o then _ else _) else _) = _
    simp only [crOff_le, crOff_inj]
    split
    · split
      · rfl
      · have hs := ln_scan h s l hl
        revert hs
        cases scan c s with
        | error e =>
          cases scan c' (crS c s l) with
          | error e' => intro hs; cases hs; rfl
          | ok s' => exact False.elim
        | ok s1 =>
          cases scan c' (crS c s l) with
          | error e' => exact False.elim
          | ok s' =>
            rintro ⟨l1, rfl, hl1⟩
            exact ih s1 l1 hl1
    · rfl

theorem ln_quoteLoop {c c' : Cfg} (h : Lines c c') (v : Str) (o f : Nat) (ho : crOff c.src o - 1 = crOff c.src (o - 1)) (s : Sc)
    (l : Option Str) (hl : s.pos < c.src.length → s.lastType.isSome = l.isSome) :
    quoteLoop c' (crOff c.src o) v f (crS c s l) = quoteLoop c o v f s := by
  induction f generalizing s l with
  | zero => rfl
  | succ f ih =>
    unfold quoteLoop
    show (if s.tokenType ≠ .EOS ∧ crOff c.src s.pos ≤ crOff c.src o then
      (if s.tokenType = .AttributeName ∧ crOff c.src s.pos = crOff c.src o - 1 then _ else _) else _) = _
    simp only [ho, crOff_le, crOff_inj]
    have hs := ln_scan h s l hl
    split
    · split
      · revert hs
        cases scan c s with
        | error e =>
          cases scan c' (crS c s l) with
          | error e' => intro hs; cases hs; rfl
          | ok s' => exact False.elim
        | ok s1 =>
          cases scan c' (crS c s l) with
          | error e' => exact False.elim
          | ok s' =>
            rintro ⟨l1, rfl, hl1⟩
            simp only [bind, Except.bind]
            rw [show (crS c s1 l1).tokenType = s1.tokenType from rfl]
            split
            · rfl
            · have hs := ln_scan h s1 l1 hl1
              revert hs
              cases scan c s1 with
              | error e =>
                cases scan c' (crS c s1 l1) with
                | error e' => intro hs; cases hs; rfl
                | ok s' => exact False.elim
              | ok s2 =>
                cases scan c' (crS c s1 l1) with
                | error e' => exact False.elim
                | ok s' =>
                  rintro ⟨l2, rfl, _⟩
                  rfl
      · revert hs
        cases scan c s with
        | error e =>
          cases scan c' (crS c s l) with
          | error e' => intro hs; cases hs; rfl
          | ok s' => exact False.elim
        | ok s1 =>
          cases scan c' (crS c s l) with
          | error e' => exact False.elim
          | ok s' =>
            rintro ⟨l1, rfl, hl1⟩
            exact ih s1 l1 hl1
    · rfl

section
variable {e : CompEnv} {d d' : TextDoc} {roots : List Node}

theorem scanFrom_cr {α : Type} (hd : OtherEnds d d') (hf : Fit d.text) (i : Nat) {g : Nat → Sc → R α} {g' : Nat → Sc → R α}
    (hg : ∀ f s l, (s.pos < d.text.length → s.lastType.isSome = l.isSome) → g' f (crS (e.cfg d false) s l) = g f s)
    (hfu : ∀ f s k, ((s.tokenType = .EOS ∧ 0 < f) ∨ mu (e.cfg d false) s + 1 < f) → g (f + k) s = g f s) :
    (scan (e.cfg d' false) (.new (crOff d.text i) .WithinContent) >>= g' (2 * d'.text.length + 2)) =
      (scan (e.cfg d false) (.new i .WithinContent) >>= g (2 * d.text.length + 2)) := by
  have hc : Lines (e.cfg d false) (e.cfg d' false) := ⟨rfl, rfl, rfl, hd.text, hf⟩
  have hs := ln_scan hc (.new i .WithinContent) none (fun _ => rfl)
  rw [crS_new] at hs
  revert hs
  show EC _ _ (scan _ (.new (crOff d.text i) .WithinContent)) → _
  cases h1 : scan (e.cfg d false) (.new i .WithinContent) with
  | error x =>
    cases scan (e.cfg d' false) (.new (crOff d.text i) .WithinContent) with
    | error y => intro h; cases h; rfl
    | ok s' => exact False.elim
  | ok s =>
    cases scan (e.cfg d' false) (.new (crOff d.text i) .WithinContent) with
    | error y => exact False.elim
    | ok s' =>
      rintro ⟨l1, rfl, hl1⟩
      have hle : d.text.length ≤ d'.text.length := by rw [hd.text, crlf_length]; omega
      show g' _ _ = g _ s
      rw [hg _ _ _ hl1, show 2 * d'.text.length + 2 = 2 * d.text.length + 2 + (2 * d'.text.length - 2 * d.text.length) by omega]
      exact hfu _ _ _ (fuel_after_new h1)

theorem scanEnds_cr (hd : OtherEnds d d') (hf : Fit d.text) (t : TT) (i o : Nat) :
    (scan (e.cfg d' false) (.new (crOff d.text i) .WithinContent) >>=
      endsAt (e.cfg d' false) t (crOff d.text o) (2 * d'.text.length + 2)) =
    (scan (e.cfg d false) (.new i .WithinContent) >>= endsAt (e.cfg d false) t o (2 * d.text.length + 2)) :=
  scanFrom_cr hd hf i (fun f s l hl => ln_endsAt (c := e.cfg d false) (c' := e.cfg d' false) ⟨rfl, rfl, rfl, hd.text, hf⟩ t o f s l hl) (fun _ _ k h => endsAt_fuel h k)

theorem scanQuote_cr (hd : OtherEnds d d') (hf : Fit d.text) (v : Str) (i o : Nat)
    (ho : crOff d.text o - 1 = crOff d.text (o - 1)) :
    (scan (e.cfg d' false) (.new (crOff d.text i) .WithinContent) >>=
      quoteLoop (e.cfg d' false) (crOff d.text o) v (2 * d'.text.length + 2)) =
    (scan (e.cfg d false) (.new i .WithinContent) >>= quoteLoop (e.cfg d false) o v (2 * d.text.length + 2)) :=
  scanFrom_cr hd hf i (fun f s l hl => ln_quoteLoop (c := e.cfg d false) (c' := e.cfg d' false) ⟨rfl, rfl, rfl, hd.text, hf⟩ v o f ho s l hl) (fun _ _ k h => quoteLoop_fuel h k)

/-! ### The services -/

theorem completeStart_cr (hd : OtherEnds d d') (hf : Fit d.text) (o : Nat) :
    completeStart e d' (crOff d.text o) (crNodes d.text roots) = completeStart e d o roots := by
  unfold completeStart
  rw [findNodeBefore_crNodes]
  cases findNodeBefore roots o with
  | none => rfl
  | some x =>
    obtain ⟨n, ps⟩ := x
    have h1 : (crNode d.text n).start = crOff d.text n.start := by rw [crNode_eq]
    have h2 : (crNode d.text n).tag = n.tag := by rw [crNode_eq]
    simp only [Option.map_some, crFound, h2]
    cases n.tag with
    | none => rfl
    | some tag =>
      simp only [beforeEnd_crNode, h1]
      split
      · have := scanEnds_cr (e := e) hd hf .StartTagClose n.start o
        rw [← bind_assoc, this, bind_assoc]
      · rfl

theorem completeEnd_cr (hd : OtherEnds d d') (hf : Fit d.text) (o : Nat) :
    completeEnd e d' (crOff d.text o) (crNodes d.text roots) = completeEnd e d o roots := by
  unfold completeEnd
  rw [findNodeBefore_crNodes]
  cases findNodeBefore roots o with
  | none => rfl
  | some x =>
    obtain ⟨n, ps⟩ := x
    simp only [Option.map_some, crFound, firstUp_crNode]
    cases firstUp (isOpen o) n ps with
    | none => rfl
    | some m =>
      have h1 : (crNode d.text m).start = crOff d.text m.start := by rw [crNode_eq]
      have h2 : (crNode d.text m).tag = m.tag := by rw [crNode_eq]
      simp only [Option.map_some, h2]
      cases m.tag with
      | none => rfl
      | some tag =>
        have hg : (getStr d'.text (crOff d.text o) (crOff d.text o + 1) = some b!">") =
            (getStr d.text o (o + 1) = some b!">") := by
          rw [hd.text]; exact propext (getStr_at (by decide) (by decide))
        have := scanEnds_cr (e := e) hd hf .EndTagOpen m.start o
        simp only [h1, hg, ne_eq]
        rw [← bind_assoc, this, bind_assoc]

variable {cps : List Nat} {o : Nat}

theorem tagComplete_cr (hu : Utf8 cps d.text) (hd : OtherEnds d d') (hl : Lawful d) (hl' : Lawful d')
    (ho : o ≤ d.text.length) (hb : isBoundary d.text o = true) :
    doTagComplete e d' (d.posAt o) (crNodes d.text roots) = doTagComplete e d (d.posAt o) roots := by
  obtain ⟨p1, p2⟩ := offset_crlf hd hl hl' ho hb
  unfold doTagComplete
  rw [p1, p2]
  dsimp only
  by_cases h0 : o = 0
  · rw [h0, crOff_zero, if_pos rfl, if_pos rfl]
  · have hpos := (crOff_lt (a := d.text) (o := 0) (p := o)).2 (by omega)
    have hg : ∀ x, x ≠ 10 → ((getStr d'.text (crOff d.text o - 1) (crOff d.text o) = some [x]) =
        (getStr d.text (o - 1) o = some [x])) := by
      intro x hx
      rw [hd.text]; exact propext (getStr_end hx (by omega) ho)
    have g1 := hg 62 (by decide)
    have g2 := hg 47 (by decide)
    rw [if_neg h0, if_neg (by omega), completeStart_cr hd (fit_of_utf8 hu), completeEnd_cr hd (fit_of_utf8 hu)]
    show (if getStr d'.text (crOff d.text o - 1) (crOff d.text o) = some [62] then _
      else if getStr d'.text (crOff d.text o - 1) (crOff d.text o) = some [47] then _ else _) =
      (if getStr d.text (o - 1) o = some [62] then _ else if getStr d.text (o - 1) o = some [47] then _ else _)
    simp only [g1, g2]

theorem quoteComplete_cr (hu : Utf8 cps d.text) (hd : OtherEnds d d') (hl : Lawful d) (hl' : Lawful d')
    (ho : o ≤ d.text.length) (hb : isBoundary d.text o = true) :
    doQuoteComplete e d' (d.posAt o) (crNodes d.text roots) = doQuoteComplete e d (d.posAt o) roots := by
  obtain ⟨p1, p2⟩ := offset_crlf hd hl hl' ho hb
  unfold doQuoteComplete
  rw [p1, p2]
  dsimp only
  by_cases h0 : o = 0
  · rw [h0, crOff_zero, if_pos rfl, if_pos rfl]
  · have hpos := (crOff_lt (a := d.text) (o := 0) (p := o)).2 (by omega)
    have hg : (getStr d'.text (crOff d.text o - 1) (crOff d.text o) = some b!"=") ↔
        (getStr d.text (o - 1) o = some b!"=") := by
      rw [hd.text]; exact getStr_end (x := 61) (by decide) (by omega) ho
    rw [if_neg h0, if_neg (by omega)]
    by_cases h1 : getStr d.text (o - 1) o = some b!"="
    · rw [if_neg (fun h => h (hg.2 h1)), if_neg (fun h => h h1)]
      cases e.quotes.pair with
      | none => rfl
      | some v =>
        dsimp only
        rw [findNodeBefore_crNodes]
        cases findNodeBefore roots o with
        | none => rfl
        | some x =>
          obtain ⟨n, ps⟩ := x
          have h2 : (crNode d.text n).start = crOff d.text n.start := by rw [crNode_eq]
          simp only [Option.map_some, crFound, beforeEnd_crNode, h2]
          split
          · refine scanQuote_cr hd (fit_of_utf8 hu) v n.start o ?_
            obtain ⟨k, rfl⟩ : ∃ k, o = k + 1 := ⟨o - 1, by omega⟩
            have h3 := (getStr_byte (x := 61)).1 h1
            rw [Nat.add_sub_cancel] at h3 ⊢
            rw [crOff_succ (by rw [h3.1]; decide), Nat.add_sub_cancel]
          · rfl
    · rw [if_pos (fun h => h1 (hg.1 h)), if_pos h1]

end

end Html
