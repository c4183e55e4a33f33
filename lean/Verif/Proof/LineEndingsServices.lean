import Verif.Proof.LineEndingsParse
import Verif.Proof.CaseServices
import Verif.Proof.Folding
import Verif.Proof.SelectionPanics

/-!
# Services on documents with other line endings
-/

namespace Html
open Spec Props

/-! ### Positions -/

theorem refPosAt_crlf {a : Str} (h : 13 ∉ a) (o : Nat) : refPosAt (crlf a) (crOff a o) = refPosAt a o := by
  induction a generalizing o with
  | nil => cases o <;> rfl
  | cons b t ih =>
    have hb : b ≠ 13 := fun e => h (by simp [e])
    have ht : 13 ∉ t := fun e => h (by simp [e])
    cases o with
    | zero => rw [crOff_zero]; simp only [refPosAt]
    | succ o =>
      have ho := crOff_add (b :: t) 1 o
      by_cases h10 : b = 10
      · subst h10
        have e : crOff (10 :: t) (o + 1) = crOff t o + 1 + 1 := by
          unfold crOff; simp; omega
        have e2 : crlf (10 :: t) = 13 :: 10 :: crlf t := by simp [crlf]
        rw [e, e2]
        simp only [refPosAt, ih ht o, isBreak]
        simp
      · have e : crOff (b :: t) (o + 1) = crOff t o + 1 := by
          unfold crOff; simp [List.count_cons, h10]; omega
        have e2 : crlf (b :: t) = b :: crlf t := by simp [crlf, h10]
        rw [e, e2]
        have e3 : ∀ x, isBreak b x = false := by intro x; simp [isBreak, h10, hb]
        simp only [refPosAt, ih ht o, e3]

theorem offset_crlf {d d' : TextDoc} (hd : OtherEnds d d') (hl : Lawful d) (hl' : Lawful d') {o : Nat}
    (ho : o ≤ d.text.length) (hb : isBoundary d.text o = true) : d.offsetAt (d.posAt o) = o ∧ d'.offsetAt (d.posAt o) = crOff d.text o := by
  refine ⟨hl.roundTrip o ho hb, ?_⟩
  rw [← hd.pos]
  refine hl'.roundTrip _ ?_ ?_
  · rw [hd.text, ← crOff_length]; exact crOff_le.2 ho
  · rw [hd.text, crlf_boundary]; exact hb

/-! ### Nodes -/

theorem firstIdx_crNodes (a : Str) (o : Nat) (l : List Node) :
    firstIdx (fun ch => decide (crOff a o < ch.start)) (crNodes a l) = firstIdx (fun ch => decide (o < ch.start)) l := by
  induction l with
  | nil => rfl
  | cons n l ih =>
    have hn : (crNode a n).start = crOff a n.start := by rw [crNode_eq]
    simp only [crNodes, firstIdx, hn, ih, crOff_lt]

/-- A node and the nodes around it. -/
def crFound (a : Str) (x : Node × List Node) : Node × List Node := (crNode a x.1, crNodes a x.2)

mutual
theorem findAt_crNode (a : Str) (o : Nat) : ∀ n : Node, Node.findAt (crOff a o) (crNode a n) = crFound a (Node.findAt o n)
  | ⟨tag, start, stop, children, closed, ste, ets, attrs⟩ => by
    simp only [crNode, Node.findAt]
    rw [firstIdx_crNodes, findAtNth_crNodes a o _ children]
    split
    · cases Node.findAtNth o (firstIdx (fun ch => decide (o < ch.start)) children - 1) children with
      | none => rfl
      | some x => rfl
    · rfl
theorem findAtNth_crNodes (a : Str) (o : Nat) : ∀ (k : Nat) (l : List Node),
    Node.findAtNth (crOff a o) k (crNodes a l) = (Node.findAtNth o k l).map (crFound a)
  | _, [] => by simp only [crNodes, Node.findAtNth]; rfl
  | 0, n :: l => by
    have h1 : (crNode a n).start = crOff a n.start := by rw [crNode_eq]
    have h2 : (crNode a n).stop = crOff a n.stop := by rw [crNode_eq]
    simp only [crNodes, Node.findAtNth, h1, h2, findAt_crNode a o n, crOff_lt, crOff_le, gt_iff_lt, ge_iff_le]
    split <;> rfl
  | k + 1, n :: l => by
    simp only [crNodes, Node.findAtNth, findAtNth_crNodes a o k l]
end

theorem findNodeAt_crNodes (a : Str) (o : Nat) (l : List Node) :
    findNodeAt (crNodes a l) (crOff a o) = (findNodeAt l o).map (crFound a) := by
  unfold findNodeAt
  simp only [firstIdx_crNodes, findAtNth_crNodes]
  split <;> rfl

theorem crOff_same {a : Str} {o k n : Nat} (h : 10 ∉ bytesIn a o (o + n)) (hk : k ≤ n) : crOff a o + k = crOff a (o + k) := by
  rw [crOff_add]
  have : ((a.drop o).take k).count 10 = 0 := by
    rw [List.count_eq_zero]
    intro hm
    apply h
    rw [bytesIn_eq_take]
    exact List.take_subset_take_left _ hk hm
  omega

variable {d d' : TextDoc} {roots : List Node}

theorem nodeLine {a : Str} {n : Node} (h : OnOneLine a n) : ∀ k, k ≤ 1 + (n.tag.getD []).length →
    crOff a n.start + k = crOff a (n.start + k) := by
  intro k hk
  refine crOff_same (n := 1 + (n.tag.getD []).length) ?_ hk
  rw [← Nat.add_assoc]
  exact h.1

theorem nodeLineEnd {a : Str} {n : Node} (h : OnOneLine a n) {e : Nat} (he : n.endTagStart = some e) :
    ∀ k, k ≤ 2 + (n.tag.getD []).length → crOff a e + k = crOff a (e + k) := by
  intro k hk
  refine crOff_same (n := 2 + (n.tag.getD []).length) ?_ hk
  rw [← Nat.add_assoc]
  exact h.2 e he

theorem ln_linked (hd : OtherEnds d d') {p : Pos} (hp : d'.offsetAt p = crOff d.text (d.offsetAt p))
    (hn : ∀ n ps, findNodeAt roots (d.offsetAt p) = some (n, ps) → OnOneLine d.text n) :
    findLinkedEditingRanges d' p (crNodes d.text roots) = findLinkedEditingRanges d p roots := by
  unfold findLinkedEditingRanges
  rw [hp]
  dsimp only
  rw [findNodeAt_crNodes]
  cases hf : findNodeAt roots (d.offsetAt p) with
  | none => rfl
  | some x =>
    obtain ⟨n, ps⟩ := x
    have h1 := hn n ps hf
    have l1 := nodeLine h1
    have l2 := fun e he => nodeLineEnd h1 (e := e) he
    simp only [Option.map_some, crFound, Option.bind_eq_bind, Option.bind_some, crNode_eq]
    cases he : n.endTagStart with
    | none => rfl
    | some e =>
      have l2 := l2 e he
      simp only [Option.map_some, Option.bind_some]
      have key : ∀ w, w = (n.tag.getD []).length →
          (if crOff d.text n.start + 1 ≤ crOff d.text (d.offsetAt p) ∧ crOff d.text (d.offsetAt p) ≤ crOff d.text n.start + 1 + w ∨
            crOff d.text e + 2 ≤ crOff d.text (d.offsetAt p) ∧ crOff d.text (d.offsetAt p) ≤ crOff d.text e + 2 + w then
            some [(⟨d'.posAt (crOff d.text n.start + 1), d'.posAt (crOff d.text n.start + 1 + w)⟩ : Range),
              ⟨d'.posAt (crOff d.text e + 2), d'.posAt (crOff d.text e + 2 + w)⟩]
          else none) =
          (if n.start + 1 ≤ d.offsetAt p ∧ d.offsetAt p ≤ n.start + 1 + w ∨ e + 2 ≤ d.offsetAt p ∧ d.offsetAt p ≤ e + 2 + w then
            some [(⟨d.posAt (n.start + 1), d.posAt (n.start + 1 + w)⟩ : Range), ⟨d.posAt (e + 2), d.posAt (e + 2 + w)⟩]
          else none) := by
        rintro w rfl
        rw [Nat.add_assoc (crOff d.text n.start), Nat.add_assoc (crOff d.text e), l1 _ (Nat.le_refl _), l1 1 (by omega),
          l2 _ (Nat.le_refl _), l2 2 (by omega)]
        simp only [crOff_le, hd.pos, Nat.add_assoc]
      refine key _ ?_
      cases n.tag <;> rfl

theorem ln_matching (hd : OtherEnds d d') {p : Pos} (hp : d'.offsetAt p = crOff d.text (d.offsetAt p))
    (hn : ∀ n ps, findNodeAt roots (d.offsetAt p) = some (n, ps) → OnOneLine d.text n) :
    findMatchingTagPosition d' p (crNodes d.text roots) = findMatchingTagPosition d p roots := by
  unfold findMatchingTagPosition
  rw [hp]
  dsimp only
  rw [findNodeAt_crNodes]
  cases hf : findNodeAt roots (d.offsetAt p) with
  | none => rfl
  | some x =>
    obtain ⟨n, ps⟩ := x
    have h1 := hn n ps hf
    have l1 := nodeLine h1
    simp only [Option.map_some, crFound, Option.bind_eq_bind, Option.bind_some, crNode_eq]
    cases ht : n.tag with
    | none => rfl
    | some tag =>
      cases he : n.endTagStart with
      | none => rfl
      | some e =>
        have l2 := nodeLineEnd h1 he
        rw [ht, Option.getD_some] at l1 l2
        simp only [Option.map_some, Option.bind_some]
        have a1 := l1 1 (by omega)
        have a2 := l1 _ (Nat.le_refl _)
        have b1 := l2 2 (by omega)
        have b2 := l2 _ (Nat.le_refl _)
        by_cases hc : n.start + 1 ≤ d.offsetAt p ∧ d.offsetAt p ≤ n.start + 1 + tag.length
        · have hc' : crOff d.text n.start + 1 ≤ crOff d.text (d.offsetAt p) ∧
              crOff d.text (d.offsetAt p) ≤ crOff d.text n.start + 1 + tag.length := by
            rw [Nat.add_assoc, a2, a1, crOff_le, crOff_le]; omega
          rw [if_pos hc, if_pos hc']
          have c1 := l1 (d.offsetAt p - n.start) (by omega)
          rw [show n.start + (d.offsetAt p - n.start) = d.offsetAt p by omega] at c1
          have c2 := l2 (d.offsetAt p - n.start + 1) (by omega)
          rw [show crOff d.text (d.offsetAt p) - 1 - crOff d.text n.start + crOff d.text e + 2 =
            crOff d.text e + (d.offsetAt p - n.start + 1) by omega, c2, hd.pos,
            show e + (d.offsetAt p - n.start + 1) = d.offsetAt p - 1 - n.start + e + 2 by omega]
        · have hc' : ¬ (crOff d.text n.start + 1 ≤ crOff d.text (d.offsetAt p) ∧
              crOff d.text (d.offsetAt p) ≤ crOff d.text n.start + 1 + tag.length) := by
            rw [Nat.add_assoc, a2, a1, crOff_le, crOff_le]; omega
          rw [if_neg hc, if_neg hc']
          by_cases hg : e + 2 ≤ d.offsetAt p ∧ d.offsetAt p ≤ e + 2 + tag.length
          · have hg' : crOff d.text e + 2 ≤ crOff d.text (d.offsetAt p) ∧
                crOff d.text (d.offsetAt p) ≤ crOff d.text e + 2 + tag.length := by
              rw [Nat.add_assoc, b2, b1, crOff_le, crOff_le]; omega
            rw [if_pos hg, if_pos hg']
            have c1 := l2 (d.offsetAt p - e) (by omega)
            rw [show e + (d.offsetAt p - e) = d.offsetAt p by omega] at c1
            have c2 := l1 (d.offsetAt p - e - 2 + 1) (by omega)
            rw [show crOff d.text (d.offsetAt p) - 2 - crOff d.text e + crOff d.text n.start + 1 =
              crOff d.text n.start + (d.offsetAt p - e - 2 + 1) by omega, c2, hd.pos,
              show n.start + (d.offsetAt p - e - 2 + 1) = d.offsetAt p - 2 - e + n.start + 1 by omega]
          · have hg' : ¬ (crOff d.text e + 2 ≤ crOff d.text (d.offsetAt p) ∧
                crOff d.text (d.offsetAt p) ≤ crOff d.text e + 2 + tag.length) := by
              rw [Nat.add_assoc, b2, b1, crOff_le, crOff_le]; omega
            rw [if_neg hg, if_neg hg']

theorem ln_rename (hd : OtherEnds d d') {p : Pos} (hp : d'.offsetAt p = crOff d.text (d.offsetAt p))
    (hn : ∀ n ps, findNodeAt roots (d.offsetAt p) = some (n, ps) → OnOneLine d.text n) (name : Str) :
    doRename d' p name (crNodes d.text roots) = doRename d p name roots := by
  unfold doRename isWithinTagRange
  rw [hp]
  dsimp only
  rw [findNodeAt_crNodes]
  cases hf : findNodeAt roots (d.offsetAt p) with
  | none => rfl
  | some x =>
    obtain ⟨n, ps⟩ := x
    have h1 := hn n ps hf
    have l1 := nodeLine h1
    simp only [Option.map_some, crFound, Option.bind_eq_bind, Option.bind_some, crNode_eq]
    cases ht : n.tag with
    | none => rfl
    | some tag =>
      have a1 := l1 1 (by omega)
      have a2 := l1 _ (Nat.le_refl _)
      rw [ht, Option.getD_some] at a2
      cases he : n.endTagStart with
      | none =>
        simp only [Option.map_none, Option.bind_some]
        rw [Nat.add_assoc (crOff d.text n.start), a2, a1]
        simp only [crOff_le, hd.pos, Nat.add_assoc]
      | some e =>
        have l2 := nodeLineEnd h1 he
        have b1 := l2 2 (by omega)
        have b2 := l2 _ (Nat.le_refl _)
        rw [ht, Option.getD_some] at b2
        simp only [Option.map_some, Option.bind_some]
        rw [Nat.add_assoc (crOff d.text n.start), Nat.add_assoc (crOff d.text e), a2, a1, b2, b1]
        simp only [crOff_le, hd.pos, Nat.add_assoc]

/-! ### Highlights -/

theorem ln_scanTo {c c' : Cfg} (h : Lines c c') (t : TT) (f : Nat) (s : Sc) (l : Option Str)
    (hl : s.pos < c.src.length → s.lastType.isSome = l.isSome) : EC c (scanTo c t f s) (scanTo c' t f (crS c s l)) := by
  induction f generalizing s l with
  | zero => exact rfl
  | succ f ih =>
    unfold scanTo
    have hs := ln_scan h s l hl
    revert hs
    cases scan c s with
    | error e =>
      cases scan c' (crS c s l) with
      | error e' => exact id
      | ok s' => exact False.elim
    | ok s1 =>
      cases scan c' (crS c s l) with
      | error e' => exact False.elim
      | ok s' =>
        rintro ⟨l1, rfl, hl1⟩
        show EC c (if s1.tokenType = .EOS ∨ s1.tokenType = t then _ else _) (if s1.tokenType = .EOS ∨ s1.tokenType = t then _ else _)
        split
        · exact ⟨l1, rfl, hl1⟩
        · exact ih s1 l1 hl1

theorem scanTo_fuel {c : Cfg} {t : TT} {f : Nat} {s : Sc} (hf : mu c s < f) (g : Nat) : scanTo c t (f + g) s = scanTo c t f s := by
  induction f generalizing s with
  | zero => omega
  | succ f ih =>
    have e : f + 1 + g = (f + g) + 1 := by omega
    rw [e]
    unfold scanTo
    cases h1 : scan c s with
    | error e => rfl
    | ok s1 =>
      simp only [bind, Except.bind]
      split
      · rfl
      · rename_i hne
        have := (scan_step h1).mu_lt (fun h => hne (.inl h))
        exact ih (by omega)

theorem mu_new {c : Cfg} {o : Nat} : mu c (.new o .WithinContent) < 2 * c.src.length + 1 := by
  unfold mu Sc.new; simp only; split <;> omega

theorem ln_tagNameRange {u : Uni} {cs : Bool} (hd : OtherEnds d d') (hf : Fit d.text) (t : TT) (o : Nat) :
    getTagNameRange u cs d' t (crOff d.text o) = getTagNameRange u cs d t o := by
  unfold getTagNameRange
  have hc : Lines ⟨u, d.text, false, cs⟩ ⟨u, d'.text, false, cs⟩ := ⟨rfl, rfl, rfl, hd.text, hf⟩
  have hs := ln_scanTo hc t (2 * d'.text.length + 1) (.new o .WithinContent) none (fun _ => rfl)
  rw [crS_new] at hs
  have hle : d.text.length ≤ d'.text.length := by rw [hd.text, crlf_length]; omega
  have := scanTo_fuel (c := ⟨u, d.text, false, cs⟩) (t := t) (mu_new (o := o)) (2 * d'.text.length - 2 * d.text.length)
  rw [show 2 * (Cfg.src ⟨u, d.text, false, cs⟩).length + 1 + (2 * d'.text.length - 2 * d.text.length) = 2 * d'.text.length + 1 by
    show 2 * d.text.length + 1 + _ = _; omega] at this
  rw [this] at hs
  dsimp only
  revert hs
  show EC _ (scanTo _ t (2 * d.text.length + 1) _) _ → _
  cases scanTo ⟨u, d.text, false, cs⟩ t (2 * d.text.length + 1) (.new o .WithinContent) with
  | error e =>
    cases scanTo ⟨u, d'.text, false, cs⟩ t (2 * d'.text.length + 1) (.new (crOff d.text o) .WithinContent) with
    | error e' => intro h; cases h; rfl
    | ok s' => exact False.elim
  | ok s1 =>
    cases scanTo ⟨u, d'.text, false, cs⟩ t (2 * d'.text.length + 1) (.new (crOff d.text o) .WithinContent) with
    | error e' => exact False.elim
    | ok s' =>
      rintro ⟨l1, rfl, _⟩
      simp only [bind, Except.bind]
      show (if s1.tokenType ≠ .EOS then Except.ok (some (⟨d'.posAt (crOff d.text s1.tokenOffset), d'.posAt (crOff d.text s1.pos)⟩ : Range)) else _) = _
      rw [hd.pos, hd.pos]
      rfl

theorem ln_highlights {u : Uni} {cs : Bool} (hd : OtherEnds d d') (hfit : Fit d.text) {p : Pos}
    (hp : d'.offsetAt p = crOff d.text (d.offsetAt p)) :
    findDocumentHighlights u cs d' p (crNodes d.text roots) = findDocumentHighlights u cs d p roots := by
  unfold findDocumentHighlights
  rw [hp, findNodeAt_crNodes]
  cases hf : findNodeAt roots (d.offsetAt p) with
  | none => rfl
  | some x =>
    obtain ⟨⟨tag, start, stop, ch, cl, ste, ets, at'⟩, ps⟩ := x
    simp only [Option.map_some, crFound, crNode, Node.isSelfClosing, Option.isNone_map, ln_tagNameRange hd hfit]
    cases ets with
    | none => rfl
    | some e =>
      simp only [Option.map_some, unwrap, bind, Except.bind, ln_tagNameRange hd hfit]
      rfl

/-! ### Symbols -/

mutual
theorem ln_symbol (hd : OtherEnds d d') : ∀ (n : Node) (acc acc' : List Symbol),
    Symbol.rangesAll acc' = Symbol.rangesAll acc →
    Symbol.rangesAll (provideSymbols d' (crNode d.text n) acc') = Symbol.rangesAll (provideSymbols d n acc)
  | ⟨tag, start, stop, children, closed, ste, ets, attrs⟩, acc, acc', h => by
    simp only [crNode, provideSymbols, rangesAll_append, h, Symbol.rangesAll, Symbol.ranges, hd.pos,
      ln_symbolAll hd children [] [] rfl]
theorem ln_symbolAll (hd : OtherEnds d d') : ∀ (l : List Node) (acc acc' : List Symbol),
    Symbol.rangesAll acc' = Symbol.rangesAll acc →
    Symbol.rangesAll (provideSymbolsAll d' (crNodes d.text l) acc') = Symbol.rangesAll (provideSymbolsAll d l acc)
  | [], acc, acc', h => by simpa only [crNodes, provideSymbolsAll] using h
  | n :: l, acc, acc', h => by
    simp only [crNodes, provideSymbolsAll]
    exact ln_symbolAll hd l _ _ (ln_symbol hd n acc acc' h)
end

theorem ln_symbols (hd : OtherEnds d d') :
    Symbol.rangesAll (findDocumentSymbols2 d' (crNodes d.text roots)) = Symbol.rangesAll (findDocumentSymbols2 d roots) := by
  unfold findDocumentSymbols2
  exact ln_symbolAll hd roots [] [] rfl

/-! ### Folding -/

theorem wordAhead_crlf {u : Uni} {x : Str} (h : Fit x) : wordAhead u (crlf x) = wordAhead u x := by
  cases x with
  | nil => rfl
  | cons b t =>
    unfold wordAhead
    by_cases hb : b = 10
    · subst hb; simp [crlf]; rfl
    · have e : crlf (b :: t) = b :: crlf t := by simp [crlf, hb]
      rw [e, codePoint_crlf h]
      rfl

theorem crlf_drop_lit {x lit : Str} (hk : ∀ k ∈ lit, NoEnd k) (h : lit.isPrefixOf x = true) :
    (crlf x).drop lit.length = crlf (x.drop lit.length) := by
  have := crlf_drop x lit.length
  unfold crOff at this
  rw [count_of_prefix hk h] at this
  exact this

theorem isRegionStart_crlf {u : Uni} {x : Str} (h : Fit x) : isRegionStart u (crlf x) = isRegionStart u x := by
  unfold isRegionStart
  have h1 : runLen isSpaceCP (crlf x) = crOff x (runLen isSpaceCP x) := meas_runLen (p := isSpaceCP) rfl h
  dsimp only
  rw [h1, crlf_drop]
  have hf : Fit (x.drop (runLen isSpaceCP x)) := h.drop _
  rw [crlf_prefix (by decide)]
  cases hp : (b!"#region").isPrefixOf (x.drop (runLen isSpaceCP x)) with
  | false => rfl
  | true =>
    have := crlf_drop_lit (lit := b!"#region") (by decide) hp
    rw [show (b!"#region").length = 7 from rfl] at this
    rw [this, wordAhead_crlf (hf.drop 7)]

theorem isRegionEnd_crlf {u : Uni} {x : Str} (h : Fit x) : isRegionEnd u (crlf x) = isRegionEnd u x := by
  induction x with
  | nil => rfl
  | cons b t ih =>
    have ih := ih h.tail
    by_cases hb : b = 10
    · subst hb
      have e : crlf (10 :: t) = 13 :: 10 :: crlf t := by simp [crlf]
      rw [e]
      simp only [isRegionEnd, ih]
      simp [List.isPrefixOf]
    · have e : crlf (b :: t) = b :: crlf t := by simp [crlf, hb]
      have hp := crlf_prefix (lit := b!"endregion") (a := b :: t) (by decide)
      rw [e] at hp
      rw [e]
      unfold isRegionEnd
      rw [ih, hp]
      cases hq : (b!"endregion").isPrefixOf (b :: t) with
      | false => rfl
      | true =>
        have := crlf_drop_lit (lit := b!"endregion") (by decide) hq
        rw [e, show (b!"endregion").length = 9 from rfl] at this
        rw [this, wordAhead_crlf (h.drop 9)]

theorem untilLit_end (lit : Str) (r : Str) : r.drop (untilLit lit r) = [] ∨ lit <+: r.drop (untilLit lit r) := by
  induction r with
  | nil => exact .inl (by simp [untilLit])
  | cons b t ih =>
    by_cases h : lit.isPrefixOf (b :: t) = true
    · refine .inr ?_
      simp only [untilLit, h, if_true, List.drop_zero]
      exact List.isPrefixOf_iff_prefix.1 h
    · have e : untilLit lit (b :: t) = untilLit lit t + 1 := by
        simp [untilLit, h]; omega
      rw [e]
      exact ih

/-- No line ends in the three bytes behind a comment. -/
theorem comment_line {c : Cfg} {s s' : Sc} (h : scan c s = .ok s') (ht : s'.tokenType = .Comment) :
    10 ∉ bytesIn c.src s'.pos (s'.pos + 3) := by
  have ct : ∀ {a s' : Sc}, StepContent c a s' → s'.tokenType ≠ .Comment := by
    intro a s' h
    cases h <;> simp [fin]
  have tg : ∀ {a s' : Sc}, StepTag c a s' → s'.tokenType ≠ .Comment := by
    intro a s' h
    cases h <;> simp [fin]
  cases scan_step h with
  | comment h hs hx h0 =>
    show 10 ∉ bytesIn c.src (s.pos + untilLit b!"-->" (rest c s))
      (s.pos + untilLit b!"-->" (rest c s) + 3)
    rw [bytesIn_eq_take]
    have hd : c.src.drop (s.pos + untilLit b!"-->" (rest c s)) = (rest c s).drop (untilLit b!"-->" (rest c s)) := by
      unfold rest; rw [List.drop_drop]
    rw [hd]
    rcases untilLit_end b!"-->" (rest c s) with he | he
    · rw [he]; simp
    · obtain ⟨r, hr⟩ := he
      rw [← hr]
      simp
  | content _ h hs hx => exact absurd ht (ct hx)
  | scriptContent _ h hs hl hx => exact absurd ht (ct hx)
  | styleContent _ h hs hb h0 hx => exact absurd ht (ct hx)
  | tag _ h hs hx => exact absurd ht (tg hx)
  | afterNameTag _ h hs hw h0 hx => exact absurd ht (tg hx)
  | valueTag _ h hs hw hb h0 h1 hx => exact absurd ht (tg hx)
  | endTag _ h hs hx => cases hx <;> simp [fin] at ht
  | _ => simp [fin] at ht

theorem ln_foldStep {u : Uni} {cs : Bool} {cps : List Nat} (void : List Str) (hd : OtherEnds d d') (hu : Utf8 cps d.text) (f : FoldState)
    (s0 s : Sc) (h : scan ⟨u, d.text, false, cs⟩ s0 = .ok s) :
    foldStep u d' void f (crTok d.text s.tok) = foldStep u d void f s.tok := by
  have hsl : sliceStr d'.text (crOff d.text s.tokenOffset) (crOff d.text s.pos) = (sliceStr d.text s.tokenOffset s.pos).map crlf := by
    rw [hd.text]; exact crlf_slice _ _ _
  have hname : ∀ x, sliceStr d.text s.tokenOffset s.pos = .ok x →
      (s.tokenType = .StartTag ∨ s.tokenType = .EndTag ∨ s.tokenType = .AttributeName) → crlf x = x := by
    intro x hx ht
    rw [(sliceStr_ok hx).2.2.2.2]
    exact crlf_none (name_line h ht)
  have hcl : foldClose d' void f (crTok d.text s.tok) = foldClose d void f s.tok := by
    unfold foldClose
    show (if s.tokenType ≠ .StartTagClose ∨ _ then (match popTo _ f.stack with
      | none => f
      | some (startLine, stack) =>
        let line := (d'.posAt (crOff d.text s.pos)).line
        if line > startLine + 1 ∧ f.prevStart ≠ some startLine then
          ({ f with stack, ranges := f.ranges ++ [⟨startLine, line - 1, none⟩], prevStart := some startLine } : FoldState)
        else { f with stack }) else f) = _
    rw [hd.pos]
    rfl
  unfold foldStep
  show (match s.tokenType with
    | .StartTag => _
    | .EndTag => _
    | .StartTagClose => _
    | .EndTagClose => _
    | .StartTagSelfClose => _
    | .Comment => _
    | _ => _) = (match s.tokenType with
    | .StartTag => _
    | .EndTag => _
    | .StartTagClose => _
    | .EndTagClose => _
    | .StartTagSelfClose => _
    | .Comment => _
    | _ => _)
  cases ht : s.tokenType <;> dsimp only <;> try rfl
  case StartTagClose => rw [hcl]
  case EndTagClose => rw [hcl]
  case StartTagSelfClose => rw [hcl]
  case StartTag =>
    show (sliceStr d'.text (crOff d.text s.tokenOffset) (crOff d.text s.pos) >>= fun name =>
      Except.ok { f with stack := ((d'.posAt (crOff d.text s.tokenOffset)).line, name) :: f.stack, lastTag := some name }) =
      (sliceStr d.text s.tokenOffset s.pos >>= _)
    rw [hsl, hd.pos]
    cases hx : sliceStr d.text s.tokenOffset s.pos with
    | error e => rfl
    | ok x =>
      simp only [Except.map, bind, Except.bind, hname x hx (by simp [ht])]
      rfl
  case EndTag =>
    show (sliceStr d'.text (crOff d.text s.tokenOffset) (crOff d.text s.pos) >>= fun name =>
      Except.ok { f with lastTag := some name }) = (sliceStr d.text s.tokenOffset s.pos >>= _)
    rw [hsl]
    cases hx : sliceStr d.text s.tokenOffset s.pos with
    | error e => rfl
    | ok x =>
      simp only [Except.map, bind, Except.bind, hname x hx (by simp [ht])]
  case Comment =>
    show (sliceStr d'.text (crOff d.text s.tokenOffset) (crOff d.text s.pos) >>= fun text =>
      Except.ok (foldComment u d' f (crTok d.text s.tok) text)) = (sliceStr d.text s.tokenOffset s.pos >>= _)
    rw [hsl]
    cases hx : sliceStr d.text s.tokenOffset s.pos with
    | error e => rfl
    | ok x =>
      simp only [Except.map, bind, Except.bind]
      refine congrArg Except.ok ?_
      obtain ⟨k1, k2, k3, k4, k5⟩ := sliceStr_ok hx
      have hfx : Fit x := by
        rw [k5]
        obtain ⟨cps', hc, _⟩ := utf8_sub hu k3 k4 k1
        exact fit_of_utf8 hc
      have h3 : crOff d.text s.pos + 3 = crOff d.text (s.pos + 3) := by
        refine crOff_same (n := 3) ?_ (Nat.le_refl _)
        exact comment_line h ht
      unfold foldComment
      rw [isRegionStart_crlf hfx, isRegionEnd_crlf hfx]
      show (let startLine := (d'.posAt (crOff d.text s.tokenOffset)).line
        if isRegionStart u x then ({ f with stack := (startLine, []) :: f.stack } : FoldState)
        else if isRegionEnd u x then
          match popTo (·.isEmpty) f.stack with
          | none => f
          | some (line, stack) =>
            if startLine > line ∧ f.prevStart ≠ some line then
              { f with stack, ranges := f.ranges ++ [⟨line, startLine, some .region⟩], prevStart := some line }
            else { f with stack }
        else
          let endLine := (d'.posAt (crOff d.text s.pos + 3)).line
          if startLine < endLine then
            { f with ranges := f.ranges ++ [⟨startLine, endLine, some .comment⟩], prevStart := some startLine }
          else f) = _
      rw [h3, hd.pos, hd.pos]
      rfl

theorem foldLoop_fuel {c : Cfg} {void : List Str} {f : Nat} {a : FoldState} {s : Sc} (hf : mu c s < f) (g : Nat) :
    foldLoop c d void (f + g) a s = foldLoop c d void f a s := by
  induction f generalizing s a with
  | zero => omega
  | succ f ih =>
    have e : f + 1 + g = (f + g) + 1 := by omega
    rw [e]
    unfold foldLoop
    cases h1 : scan c s with
    | error e => rfl
    | ok s1 =>
      simp only [bind, Except.bind]
      split
      · rfl
      · rename_i hne
        have := (scan_step h1).mu_lt hne
        cases foldStep c.uni d void a s1.tok with
        | error e => rfl
        | ok q => exact ih (by omega)

theorem ln_foldLoop {u : Uni} {cs : Bool} {cps : List Nat} (void : List Str) (hd : OtherEnds d d') (hu : Utf8 cps d.text)
    (f : Nat) (a : FoldState) (s : Sc) (l : Option Str) (hl : s.pos < d.text.length → s.lastType.isSome = l.isSome) :
    foldLoop ⟨u, d'.text, false, cs⟩ d' void f a (crS ⟨u, d.text, false, cs⟩ s l) = foldLoop ⟨u, d.text, false, cs⟩ d void f a s := by
  have h : Lines ⟨u, d.text, false, cs⟩ ⟨u, d'.text, false, cs⟩ := ⟨rfl, rfl, rfl, hd.text, fit_of_utf8 hu⟩
  induction f generalizing a s l with
  | zero => rfl
  | succ f ih =>
    have hs := ln_scan h s l hl
    unfold foldLoop
    revert hs
    cases hsc : scan ⟨u, d.text, false, cs⟩ s with
    | error e => cases scan ⟨u, d'.text, false, cs⟩ (crS ⟨u, d.text, false, cs⟩ s l) with
      | error e' => intro hs; cases hs; rfl
      | ok s' => exact False.elim
    | ok s1 => cases scan ⟨u, d'.text, false, cs⟩ (crS ⟨u, d.text, false, cs⟩ s l) with
      | error e' => exact False.elim
      | ok s' =>
        rintro ⟨l1, rfl, h1⟩
        simp only [bind, Except.bind]
        show (if s1.tokenType = .EOS then _ else _) = (if s1.tokenType = .EOS then _ else _)
        split
        · rfl
        · have hstep := ln_foldStep void hd hu a s s1 hsc
          have e : (crS ⟨u, d.text, false, cs⟩ s1 l1).tok = crTok d.text s1.tok := rfl
          rw [e, hstep]
          cases foldStep u d void a s1.tok with
          | error e => rfl
          | ok q => exact ih q s1 l1 h1

theorem ln_folding {u : Uni} {cs : Bool} {cps : List Nat} (void : List Str) (hd : OtherEnds d d') (hu : Utf8 cps d.text)
    (limit : Option Nat) : getFoldingRanges u cs void d' limit = getFoldingRanges u cs void d limit := by
  unfold getFoldingRanges
  have h1 := ln_foldLoop (u := u) (cs := cs) void hd hu (2 * d'.text.length + 2) ⟨[], [], none, none⟩ (.new 0 .WithinContent) none (fun _ => rfl)
  rw [crS_new, crOff_zero] at h1
  have hle : d.text.length ≤ d'.text.length := by rw [hd.text, crlf_length]; omega
  have hm : mu ⟨u, d.text, false, cs⟩ (.new 0 .WithinContent) < 2 * d.text.length + 2 := by
    have := mu_new (c := ⟨u, d.text, false, cs⟩) (o := 0)
    exact Nat.lt_succ_of_lt this
  have h2 := foldLoop_fuel (d := d) (void := void) (a := ⟨[], [], none, none⟩) hm (2 * d'.text.length - 2 * d.text.length)
  rw [show 2 * d.text.length + 2 + (2 * d'.text.length - 2 * d.text.length) = 2 * d'.text.length + 2 by omega] at h2
  dsimp only
  rw [h1, h2]

end Html
