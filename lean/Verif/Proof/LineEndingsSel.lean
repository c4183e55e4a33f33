import Verif.Proof.LineEndingsServices
import Verif.Proof.SelectionPanics
import Verif.Proof.SelectionExact

/-! # Selection ranges with other line endings -/

namespace Html
open Spec

/-- A range of offsets of the text, as one of `crlf text`. -/
def crR (a : Str) (x : Nat × Nat) : Nat × Nat := (crOff a x.1, crOff a x.2)

theorem crR_inj {a : Str} {x y : Nat × Nat} : crR a x = crR a y ↔ x = y := by
  obtain ⟨i, j⟩ := x
  obtain ⟨k, l⟩ := y
  simp only [crR, Prod.mk.injEq, crOff_inj]

/-- The variables of the search for attributes, on the other text. -/
def crA (a : Str) (s : AttrSel) : AttrSel := ⟨s.result.map (crR a), s.inside, crOff a s.attrStart⟩

theorem crlf_getLast (a : Str) : (crlf a).getLast? = a.getLast? := by
  induction a with
  | nil => rfl
  | cons x a ih =>
    cases a with
    | nil =>
      unfold crlf
      split
      · rename_i h; subst h; rfl
      · rfl
    | cons y a =>
      have hne : crlf (y :: a) ≠ [] := fun h => by simp [crlf_nil] at h
      have key : ∀ z, (z :: crlf (y :: a)).getLast? = (crlf (y :: a)).getLast? := fun z => by
        cases h : crlf (y :: a) with
        | nil => exact absurd h hne
        | cons b t => simp
      rw [show (x :: y :: a).getLast? = (y :: a).getLast? by simp, ← ih]
      show (if x = 10 then 13 :: 10 :: crlf (y :: a) else x :: crlf (y :: a)).getLast? = _
      split
      · rw [List.getLast?_cons_cons, key]
      · exact key _

theorem crlf_bothQuotes (a : Str) : bothQuotes (crlf a) = bothQuotes a := by
  have h : ∀ k, NoEnd k → ((crlf a).head? == some k) = (a.head? == some k) := fun k hk => by
    rw [Bool.eq_iff_iff, beq_iff_eq, beq_iff_eq, crlf_head_eq hk]
  unfold bothQuotes
  rw [crlf_getLast, h 34 (by unfold NoEnd; decide), h 39 (by unfold NoEnd; decide)]

theorem crOff_succ {a : Str} {o : Nat} (h : a[o]? ≠ some 10) : crOff a (o + 1) = crOff a o + 1 := by
  rw [crOff_add]
  have : ((a.drop o).take 1).count 10 = 0 := by
    cases hd : a.drop o with
    | nil => rfl
    | cons b t =>
      have hb : a[o]? = some b := by rw [← List.head?_drop, hd]; rfl
      have hne : b ≠ 10 := fun hx => h (by rw [hb, hx])
      simp [List.count_cons, hne]
  omega

theorem crOff_pred {a : Str} {o : Nat} (h0 : 0 < o) (h : a[o - 1]? ≠ some 10) : crOff a o - 1 = crOff a (o - 1) := by
  have := crOff_succ (a := a) (o := o - 1) h
  rw [show o - 1 + 1 = o by omega] at this
  omega

theorem quotes_off {a x : Str} {i j : Nat} (h : sliceStr a i j = .ok x) (hq : bothQuotes x = true) :
    crOff a (i + 1) = crOff a i + 1 ∧ crOff a j - 1 = crOff a (j - 1) := by
  obtain ⟨h1, h2, h3, _, h4⟩ := sliceStr_ok h
  have hx : x = (a.take j).drop i := by rw [h4]; rfl
  have hne : x ≠ [] := by rintro rfl; cases hq
  have hlt : i < j := by
    rcases Nat.lt_or_ge i j with hij | hij
    · exact hij
    · exfalso
      apply hne
      rw [hx, List.drop_eq_nil_iff, List.length_take]
      omega
  have hhead : x.head? = a[i]? := by rw [hx, List.head?_drop, List.getElem?_take_of_lt hlt]
  have hj : j ≤ a.length := by omega
  have hlast : x.getLast? = a[j - 1]? := by
    rw [hx, List.getLast?_eq_getElem?, List.getElem?_drop, List.length_drop, List.length_take, Nat.min_eq_left hj,
      show i + (j - i - 1) = j - 1 by omega, List.getElem?_take_of_lt (by omega)]
  unfold bothQuotes at hq
  rw [hhead, hlast] at hq
  simp only [Bool.or_eq_true, Bool.and_eq_true, beq_iff_eq] at hq
  refine ⟨crOff_succ ?_, crOff_pred (by omega) ?_⟩ <;> rcases hq with ⟨g1, g2⟩ | ⟨g1, g2⟩ <;> simp [g1, g2]

theorem ln_attrSelStep (a : Str) (rel : Nat) (s : AttrSel) (t : Tok) :
    attrSelStep (crlf a) (crOff a rel) (crA a s) (crTok a t) = (attrSelStep a rel s t).map (crA a) := by
  unfold attrSelStep
  show (match t.type with | .AttributeName => _ | .AttributeValue => _ | _ => _) = _
  cases ht : t.type <;> try rfl
  · dsimp only [crTok, crA]
    simp only [crOff_lt, crOff_le]
    by_cases h1 : rel < t.offset
    · rw [if_pos h1, if_pos h1]; rfl
    · rw [if_neg h1, if_neg h1]
      by_cases h2 : rel ≤ t.stop
      · rw [if_pos h2, if_pos h2]; rfl
      · rw [if_neg h2, if_neg h2]; rfl
  · obtain ⟨res, inside, st⟩ := s
    dsimp only [crTok, crA]
    cases inside with
    | false => rfl
    | true =>
      simp only [↓reduceIte, crlf_slice]
      cases hs : sliceStr a t.offset t.stop with
      | error e => rfl
      | ok x =>
        simp only [bind, Except.bind, Except.map, crOff_lt, crOff_le, crlf_bothQuotes]
        by_cases h1 : rel < t.offset
        · rw [if_pos h1, if_pos h1]; simp [crA, crR, Except.map]
        · rw [if_neg h1, if_neg h1]
          by_cases h2 : rel ≤ t.stop
          · rw [if_pos h2, if_pos h2]
            by_cases hq : bothQuotes x = true
            · obtain ⟨g1, g2⟩ := quotes_off hs hq
              rw [← g1, g2]
              simp only [crOff_le, hq, true_and]
              by_cases h3 : t.offset + 1 ≤ rel ∧ rel ≤ t.stop - 1
              · rw [if_pos h3, if_pos h3]; simp [crA, crR]
              · rw [if_neg h3, if_neg h3]; simp [crA, crR]
            · simp [hq, crA, crR]
          · rw [if_neg h2, if_neg h2]; rfl

theorem ln_attrSelLoop {c c' : Cfg} (h : Lines c c') (rel f : Nat) (a : AttrSel) (s : Sc) (l : Option Str)
    (hl : s.pos < c.src.length → s.lastType.isSome = l.isSome) :
    attrSelLoop c' (crOff c.src rel) f (crA c.src a) (crS c s l) = (attrSelLoop c rel f a s).map (crA c.src) := by
  induction f generalizing a s l with
  | zero => rfl
  | succ f ih =>
    have hs := ln_scan h s l hl
    unfold attrSelLoop
    revert hs
    cases scan c s with
    | error e => cases scan c' (crS c s l) with
      | error e' => intro hs; cases hs; rfl
      | ok s' => exact False.elim
    | ok s1 => cases scan c' (crS c s l) with
      | error e' => exact False.elim
      | ok s' =>
        rintro ⟨l1, rfl, h1⟩
        simp only [bind, Except.bind]
        show (if s1.tokenType = .EOS then _ else _) = Except.map _ (if s1.tokenType = .EOS then _ else _)
        split
        · rfl
        · have ht : (crS c s1 l1).tok = crTok c.src s1.tok := rfl
          rw [ht, h.src, ln_attrSelStep]
          cases attrSelStep c.src rel a s1.tok with
          | error e => rfl
          | ok a1 => exact ih a1 s1 l1 h1

theorem attrSelLoop_fuel {c : Cfg} {rel f : Nat} {a : AttrSel} {s : Sc} (hf : mu c s < f) (g : Nat) :
    attrSelLoop c rel (f + g) a s = attrSelLoop c rel f a s := by
  induction f generalizing a s with
  | zero => omega
  | succ f ih =>
    have e : f + 1 + g = (f + g) + 1 := by omega
    rw [e]
    unfold attrSelLoop
    cases h1 : scan c s with
    | error e => rfl
    | ok s1 =>
      simp only [bind, Except.bind]
      split
      · rfl
      · rename_i hne
        have := (scan_step h1).mu_lt hne
        cases attrSelStep c.src rel a s1.tok with
        | error e => rfl
        | ok a1 => exact ih (by omega)

/-- All offsets are in the text. -/
def SelIn (n : Nat) (a : AttrSel) : Prop := (∀ r ∈ a.result, r.1 ≤ n ∧ r.2 ≤ n) ∧ a.attrStart ≤ n

theorem attrSelStep_in {x : Str} {rel n : Nat} {a b : AttrSel} {t : Tok} (ha : SelIn n a) (ht : t.offset ≤ t.stop) (hn : t.stop ≤ n)
    (h : attrSelStep x rel a t = .ok b) : SelIn n b := by
  obtain ⟨g1, g2⟩ := ha
  unfold attrSelStep at h
  split at h
  · split at h
    · cases h; exact ⟨g1, g2⟩
    · cases h
      refine ⟨?_, by dsimp only; omega⟩
      dsimp only
      split
      · intro r hr
        rcases List.mem_cons.1 hr with rfl | hr
        · dsimp only; omega
        · exact g1 r hr
      · exact g1
  · split at h
    · obtain ⟨y, _, h⟩ := bind_ok h
      have base : ∀ (l : List (Nat × Nat)), (∀ r ∈ l, r.1 ≤ n ∧ r.2 ≤ n) → ∀ r ∈ l ++ [(a.attrStart, t.stop)], r.1 ≤ n ∧ r.2 ≤ n := by
        intro l hl r hr
        rcases List.mem_append.1 hr with hr | hr
        · exact hl r hr
        · cases List.mem_singleton.1 hr
          exact ⟨g2, hn⟩
      have g3 : ∀ r ∈ (t.offset, t.stop) :: a.result, r.1 ≤ n ∧ r.2 ≤ n := by
        intro r hr
        rcases List.mem_cons.1 hr with rfl | hr
        · dsimp only; omega
        · exact g1 r hr
      split at h
      · cases h
        exact ⟨base _ g1, g2⟩
      · split at h
        · cases h
          refine ⟨base _ ?_, g2⟩
          split
          · rename_i hc
            intro r hr
            rcases List.mem_cons.1 hr with rfl | hr
            · dsimp only; omega
            · exact g3 r hr
          · exact g3
        · cases h; exact ⟨g1, g2⟩
    · cases h; exact ⟨g1, g2⟩
  · cases h; exact ⟨g1, g2⟩

theorem attrSelLoop_in {c : Cfg} {rel f : Nat} {a b : AttrSel} {s : Sc} (ha : SelIn c.src.length a) (hs : s.pos ≤ c.src.length)
    (h : attrSelLoop c rel f a s = .ok b) : SelIn c.src.length b := by
  induction f generalizing a s with
  | zero => cases h
  | succ f ih =>
    unfold attrSelLoop at h
    obtain ⟨s1, h1, h⟩ := bind_ok h
    have hst := scan_step h1
    split at h
    · cases h; exact ha
    · obtain ⟨a1, h2, h⟩ := bind_ok h
      have hp := hst.pos_le hs
      exact ih (attrSelStep_in ha (t := s1.tok) hst.offset_le (by show s1.pos ≤ _; omega) h2) (by omega) h

theorem crOff_sub {a : Str} {i j k : Nat} (h : i + k ≤ j) : crOff (bytesIn a i j) k + crOff a i = crOff a (i + k) := by
  rw [crOff_add]
  unfold crOff bytesIn
  rw [List.take_drop, List.take_take, Nat.min_eq_left h, ← List.take_drop]
  omega

section
variable {u : Uni} {cs : Bool} {void : List Str} {roots : List Node} {cps : List Nat} {d d' : TextDoc}

theorem crlf_bd (a : Str) {o : Nat} (h : isBoundary a o = true) : isBoundary (crlf a) (crOff a o) = true := by
  rw [crlf_boundary]; exact h

theorem ln_attributeRanges (hd : OtherEnds d d') (hl : Lawful d) (hl' : Lawful d') (hu : Utf8 cps d.text) {n : Node} {cur : Nat}
    (hc : n.start ≤ cur) (hs : cur ≤ n.stop) (h1 : isBoundary d.text n.start = true) (h2 : isBoundary d.text n.stop = true) :
    attributeRanges u cs d' (crNode d.text n) (crOff d.text cur) =
      (attributeRanges u cs d n cur).map (List.map (crR d.text)) := by
  have hx := hl.content_ok (by omega) h1 h2
  have hx' := hl'.content_ok (a := crOff d.text n.start) (b := crOff d.text n.stop) (crOff_le.2 (by omega))
    (by rw [hd.text]; exact crlf_bd _ h1) (by rw [hd.text]; exact crlf_bd _ h2)
  have e1 : (crNode d.text n).start = crOff d.text n.start := by rw [crNode_eq]
  have e2 : (crNode d.text n).stop = crOff d.text n.stop := by rw [crNode_eq]
  rw [hd.text, crlf_bytesIn (by omega)] at hx'
  obtain ⟨cps', hu', _⟩ := utf8_sub hu h1 h2 (by omega)
  have hle := isBoundary_le h2
  have hlen : (bytesIn d.text n.start n.stop).length = n.stop - n.start := by
    unfold bytesIn
    rw [List.length_drop, List.length_take]
    omega
  unfold attributeRanges
  rw [e1, e2, hx, hx']
  generalize hb : bytesIn d.text n.start n.stop = x at *
  have hrel : crOff d.text cur - crOff d.text n.start = crOff x (cur - n.start) := by
    have := crOff_sub (a := d.text) (i := n.start) (j := n.stop) (k := cur - n.start) (by omega)
    rw [hb, show n.start + (cur - n.start) = cur by omega] at this
    omega
  simp only [bind, Except.bind, subU]
  rw [if_pos (crOff_le.2 hc), if_pos hc]
  dsimp only
  rw [hrel]
  have hc : Lines ⟨u, x, false, cs⟩ ⟨u, crlf x, false, cs⟩ := ⟨rfl, rfl, rfl, rfl, fit_of_utf8 hu'⟩
  have key := ln_attrSelLoop hc (cur - n.start) (2 * (crlf x).length + 2) ⟨[], false, 0⟩ (.new 0 .WithinContent) none (fun _ => rfl)
  have hcl : x.length ≤ (crlf x).length := by rw [crlf_length]; omega
  have hm := mu_new (c := ⟨u, x, false, cs⟩) (o := 0)
  have hf := attrSelLoop_fuel (c := ⟨u, x, false, cs⟩) (rel := cur - n.start) (a := ⟨[], false, 0⟩) (s := .new 0 .WithinContent)
    (f := 2 * x.length + 2) (by dsimp only at hm; omega) (2 * (crlf x).length - 2 * x.length)
  rw [show 2 * x.length + 2 + (2 * (crlf x).length - 2 * x.length) = 2 * (crlf x).length + 2 by omega] at hf
  rw [hf, crS_new] at key
  have ha0 : crA x ⟨[], false, 0⟩ = ⟨[], false, 0⟩ := by simp [crA, crOff_zero]
  dsimp only at key
  rw [ha0, crOff_zero] at key
  rw [key]
  cases hr : attrSelLoop ⟨u, x, false, cs⟩ (cur - n.start) (2 * x.length + 2) ⟨[], false, 0⟩ (.new 0 .WithinContent) with
  | error e => rfl
  | ok a =>
    have hin := (attrSelLoop_in (c := ⟨u, x, false, cs⟩) (a := ⟨[], false, 0⟩) ⟨(fun r hr => by cases hr), Nat.zero_le _⟩ (Nat.zero_le _) hr).1
    simp only [Except.map, crA, List.map_map]
    congr 1
    apply List.map_congr_left
    intro r hr
    obtain ⟨i1, i2⟩ := hin r hr
    dsimp only at i1 i2
    rw [hlen] at i1 i2
    have k1 := crOff_sub (a := d.text) (i := n.start) (j := n.stop) (k := r.1) (by omega)
    have k2 := crOff_sub (a := d.text) (i := n.start) (j := n.stop) (k := r.2) (by omega)
    rw [hb] at k1 k2
    simp only [Function.comp, crR, Prod.mk.injEq]
    rw [Nat.add_comm r.1, Nat.add_comm r.2]
    exact ⟨k1, k2⟩

theorem ln_nodeRanges (a : Str) (n : Node) : nodeRanges (crNode a n) = (nodeRanges n).map (crR a) := by
  rw [crNode_eq]
  unfold nodeRanges
  cases n.startTagEnd <;> cases n.endTagStart <;> simp only [Option.map_none, Option.map_some] <;> try rfl
  rename_i i j
  simp only [crOff_lt]
  split <;> rfl

theorem ln_allParentRanges (a : Str) (ps roots : List Node) :
    allParentRanges (crNodes a ps) (crNodes a roots) = (allParentRanges ps roots).map (crR a) := by
  unfold allParentRanges
  rw [List.map_append, crNodes_map, ← List.map_reverse, List.map_map, List.map_flatten, List.map_map]
  congr 1
  · congr 1
    apply List.map_congr_left
    intro n _
    exact ln_nodeRanges a n
  · unfold rootsRange
    rw [crNodes_map, List.head?_map, List.getLast?_map]
    cases roots.head? <;> cases roots.getLast? <;> simp only [Option.map_none, Option.map_some] <;> try rfl
    simp [crNode_eq, crR]

theorem slash_crlf {a : Str} {e : Nat} (h2 : 2 ≤ e) (he : e ≤ a.length) (hgt : a[e - 1]? = some 62) :
    At (crlf a) (crOff a e - 2) b!"/>" ↔ At a (e - 2) b!"/>" := by
  have h1 : crOff a e - 1 = crOff a (e - 1) := crOff_pred (by omega) (by rw [hgt]; decide)
  have l1 := crlf_last a (o := e) (by omega) he
  have l2 := crlf_last a (o := e - 1) (by omega) (by omega)
  rw [← h1] at l2
  have hge : 2 ≤ crOff a e := by unfold crOff; omega
  have iff : ∀ (x : Str) (k : Nat), 2 ≤ k → (At x (k - 2) b!"/>" ↔ x[k - 2]? = some 47 ∧ x[k - 1]? = some 62) := by
    intro x k hk
    constructor
    · intro h
      refine ⟨at_get0 h, ?_⟩
      obtain ⟨r, h⟩ := h
      have : (x.drop (k - 2))[1]? = some 62 := by rw [h]; rfl
      rw [List.getElem?_drop, show k - 2 + 1 = k - 1 by omega] at this
      exact this
    · rintro ⟨g1, g2⟩
      obtain ⟨q1, q2⟩ := List.getElem?_eq_some_iff.1 g1
      obtain ⟨q3, q4⟩ := List.getElem?_eq_some_iff.1 g2
      refine ⟨x.drop k, ?_⟩
      rw [List.drop_eq_getElem_cons q1, q2]
      have e : k - 2 + 1 = k - 1 := by omega
      simp only [e]
      rw [List.drop_eq_getElem_cons q3, q4, show k - 1 + 1 = k by omega]
      rfl
  rw [iff _ _ hge, iff _ _ h2, l1, show crOff a e - 2 = crOff a e - 1 - 1 by omega, l2, show e - 1 - 1 = e - 2 by omega]

theorem ln_applicable (hd : OtherEnds d d') (hl : Lawful d) (hl' : Lawful d') (ho : Ordered d) (ho' : Ordered d') (hu : Utf8 cps d.text)
    (h : parse u cs void d.text = .ok roots) {p : Pos} (hp : d'.offsetAt p = crOff d.text (d.offsetAt p))
    (hcut : ∀ n ps, findNodeAt roots (d.offsetAt p) = some (n, ps) → CutOnLine d.text n (d.offsetAt p)) :
    applicableRanges u cs d' (crNodes d.text roots) p = (applicableRanges u cs d roots p).map (List.map (crR d.text)) := by
  have hnx := asciiNext_of_utf8 hu
  have hspec := findNodeAt_spec (o := d.offsetAt p) (parse_nest h)
  unfold applicableRanges
  dsimp only
  rw [hp, findNodeAt_crNodes]
  cases hf : findNodeAt roots (d.offsetAt p) with
  | none => exact congrArg Except.ok (ln_allParentRanges d.text [] roots)
  | some x =>
    obtain ⟨n, ps⟩ := x
    rw [hf] at hspec
    have hin := (chain_inForest hspec.chain).1
    have hdone := parse_done h hin
    have hc := hspec.covers
    have hcut := hcut n ps hf
    generalize d.offsetAt p = cur at *
    have hc1 : n.start ≤ cur := hc.1
    have hc2 : cur ≤ n.stop := by unfold Covers at hc; omega
    have hbs := (hdone.start_bd hnx).1
    have hbe := parse_stop_bd hnx h hin
    have hatt := ln_attributeRanges (u := u) (cs := cs) hd hl hl' hu hc1 hc2 hbs hbe
    have hlt : d.text[n.start]? = some 60 := hdone.opn
    have hs1 : crOff d.text (n.start + 1) = crOff d.text n.start + 1 := crOff_succ (by rw [hlt]; decide)
    have e1 : (crNode d.text n).start = crOff d.text n.start := by rw [crNode_eq]
    have e2 : (crNode d.text n).stop = crOff d.text n.stop := by rw [crNode_eq]
    have e3 : (crNode d.text n).startTagEnd = n.startTagEnd.map (crOff d.text) := by rw [crNode_eq]
    have e4 : (crNode d.text n).endTagStart = n.endTagStart.map (crOff d.text) := by rw [crNode_eq]
    simp only [Option.map_some, crFound, e3, e4, ln_allParentRanges]
    generalize allParentRanges ps roots = res
    cases he : n.startTagEnd with
    | none => rfl
    | some e =>
      have hste := hdone.ste e he
      have hgt : d.text[e - 1]? = some 62 := at_get0 hste.2.1
      have h2 : 2 ≤ e := by
        rcases Nat.lt_or_ge e 2 with h2 | h2
        · have e0 : n.start = e - 1 := by have := hste.1; omega
          rw [← e0, hlt] at hgt; cases hgt
        · exact h2
      have hbd := (hdone.ste_bd hnx he).1
      have hel : e ≤ d.text.length := isBoundary_le hbd
      have hp1 : crOff d.text e - 1 = crOff d.text (e - 1) := crOff_pred (by omega) (by rw [hgt]; decide)
      have hge : 2 ≤ crOff d.text e := by unfold crOff; omega
      cases hz : n.endTagStart with
      | none =>
        simp only [Option.map_some, Option.map_none]
        unfold voidRanges
        rw [e1, e2]
        by_cases hq : e = n.stop
        · rw [if_neg (by simpa [crOff_inj] using hq), if_neg (by simpa using hq)]
          obtain ⟨x, hx⟩ := hl.content_ordered ho (a := e - 2) (b := e) (by omega) hbd
          have hbd' : isBoundary d'.text (crOff d.text e) = true := by rw [hd.text]; exact crlf_bd _ hbd
          obtain ⟨x', hx'⟩ := hl'.content_ordered ho' (a := crOff d.text e - 2) (b := crOff d.text e) (by omega) hbd'
          have hi := closeText_iff hl h2 hbd hx
          have hi' := closeText_iff hl' hge hbd' hx'
          rw [hd.text, slash_crlf h2 hel hgt] at hi'
          rw [show subU e 2 = .ok (e - 2) from if_pos h2, show subU (crOff d.text e) 2 = .ok (crOff d.text e - 2) from if_pos hge]
          simp only [bind, Except.bind, hx, hx', hatt]
          cases attributeRanges u cs d n cur with
          | error y => rfl
          | ok y =>
            simp only [Except.map, List.map_append, List.map_cons, crR]
            rw [← hs1]
            congr 4
            by_cases hsl : At d.text (e - 2) b!"/>"
            · rw [if_pos (hi'.2 hsl), if_pos (hi.2 hsl)]
              have hsl' : d.text[e - 2]? = some 47 := at_get0 hsl
              have := crOff_pred (a := d.text) (o := e - 1) (by omega) (by rw [show e - 1 - 1 = e - 2 by omega, hsl']; decide)
              rw [show e - 1 - 1 = e - 2 by omega] at this
              omega
            · rw [if_neg (fun h => hsl (hi'.1 h)), if_neg (fun h => hsl (hi.1 h))]
              exact hp1
        · rw [if_pos (by simpa [crOff_inj] using hq), if_pos (by simpa using hq)]
          rfl
      | some ets =>
        have hcut := hcut ets hz
        have hat : At d.text ets b!"</" := (hdone.ets ets hz).2.1
        have hets1 : crOff d.text (ets + 1) = crOff d.text ets + 1 := crOff_succ (by rw [at_get0 hat]; decide)
        have hets2 : crOff d.text (ets + 2) = crOff d.text ets + 2 := by
          have : d.text[ets + 1]? = some 47 := by
            obtain ⟨r, hr⟩ := hat
            have : (d.text.drop ets)[1]? = some 47 := by rw [hr]; rfl
            rwa [List.getElem?_drop] at this
          have := crOff_succ (a := d.text) (o := ets + 1) (by rw [this]; decide)
          rw [show ets + 1 + 1 = ets + 2 by omega] at this
          omega
        simp only [Option.map_some]
        unfold pairRanges
        dsimp only
        rw [e1, e2, ← hets2]
        simp only [crOff_lt, crOff_le]
        by_cases q1 : n.start < cur ∧ cur < e
        · rw [if_pos q1, if_pos q1, show subU e 1 = .ok (e - 1) from if_pos (by omega),
            show subU (crOff d.text e) 1 = .ok (crOff d.text e - 1) from if_pos (by omega)]
          simp only [bind, Except.bind, hatt]
          cases attributeRanges u cs d n cur with
          | error y => rfl
          | ok y =>
            simp only [Except.map, List.map_append, List.map_cons, crR]
            rw [← hs1, hp1]
        · rw [if_neg q1, if_neg q1]
          by_cases q2 : e ≤ cur ∧ cur ≤ ets
          · rw [if_pos q2, if_pos q2]; rfl
          · rw [if_neg q2, if_neg q2]
            by_cases q3 : ets + 2 ≤ cur
            · have hpos : 0 < n.stop := by omega
              have h0 : crOff d.text n.stop - 1 = crOff d.text (n.stop - 1) := crOff_pred hpos (hcut q3)
              have hpos' : 1 ≤ crOff d.text n.stop := by unfold crOff; omega
              rw [if_pos q3, if_pos q3, show subU n.stop 1 = .ok (n.stop - 1) from if_pos hpos,
                show subU (crOff d.text n.stop) 1 = .ok (crOff d.text n.stop - 1) from if_pos hpos', h0]
              rfl
            · rw [if_neg q3, if_neg q3]; rfl

theorem ln_foldr (hd : OtherEnds d d') (l : List (Nat × Nat)) :
    (l.map (crR d.text)).foldr (selStep d') (none, none) =
      ((l.foldr (selStep d) (none, none)).1.map (crR d.text), (l.foldr (selStep d) (none, none)).2) := by
  induction l with
  | nil => rfl
  | cons x l ih =>
    rw [List.map_cons, List.foldr_cons, List.foldr_cons, ih]
    generalize l.foldr (selStep d) (none, none) = s
    obtain ⟨a, b⟩ := s
    unfold selStep
    simp only [Option.map_some, Prod.mk.injEq, true_and]
    have hr : (⟨d'.posAt (crR d.text x).1, d'.posAt (crR d.text x).2⟩ : Range) = ⟨d.posAt x.1, d.posAt x.2⟩ := by
      simp only [crR, hd.pos]
    rw [hr]
    have : (a.map (crR d.text) = some (crR d.text x)) ↔ a = some x := by
      cases a with
      | none => simp
      | some y => simp only [Option.map_some, Option.some.injEq, crR_inj]
    by_cases hx : a = some x
    · rw [if_pos hx, if_pos (this.2 hx)]
    · rw [if_neg hx, if_neg (fun h => hx (this.1 h))]

theorem ln_selection (hd : OtherEnds d d') (hl : Lawful d) (hl' : Lawful d') (ho : Ordered d) (ho' : Ordered d') (hu : Utf8 cps d.text)
    (h : parse u cs void d.text = .ok roots) {p : Pos} (hp : d'.offsetAt p = crOff d.text (d.offsetAt p))
    (hcut : ∀ n ps, findNodeAt roots (d.offsetAt p) = some (n, ps) → CutOnLine d.text n (d.offsetAt p)) :
    selectionRange u cs d' (crNodes d.text roots) p = selectionRange u cs d roots p := by
  unfold selectionRange
  rw [ln_applicable hd hl hl' ho ho' hu h hp hcut]
  cases applicableRanges u cs d roots p with
  | error e => rfl
  | ok l =>
    simp only [Except.map, bind, Except.bind]
    rw [ln_foldr hd]

theorem ln_selections (hd : OtherEnds d d') (hl : Lawful d) (hl' : Lawful d') (ho : Ordered d) (ho' : Ordered d') (hu : Utf8 cps d.text)
    (h : parse u cs void d.text = .ok roots) {ps : List Pos} (hp : ∀ p ∈ ps, d'.offsetAt p = crOff d.text (d.offsetAt p))
    (hcut : ∀ p ∈ ps, ∀ n ps, findNodeAt roots (d.offsetAt p) = some (n, ps) → CutOnLine d.text n (d.offsetAt p)) :
    getSelectionRanges u cs d' (crNodes d.text roots) ps = getSelectionRanges u cs d roots ps := by
  unfold getSelectionRanges
  induction ps with
  | nil => rfl
  | cons p ps ih =>
    rw [List.mapM_cons, List.mapM_cons, ln_selection hd hl hl' ho ho' hu h (hp p (by simp)) (hcut p (by simp)),
      ih (fun q hq => hp q (by simp [hq])) (fun q hq => hcut q (by simp [hq]))]

end

end Html
