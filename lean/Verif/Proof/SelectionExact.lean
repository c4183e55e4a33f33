import Verif.Proof.Selection
import Verif.Proof.Highlight

/-! # Which ranges the chain begins with, and when it goes wrong -/

namespace Html
open Spec

variable {c : Cfg} {u : Uni} {cs : Bool} {void : List Str} {roots : List Node}

theorem spaces_unique {w w' r r' : Str} (h1 : Spaces w) (h2 : Spaces w') (h : w ++ 61 :: r = w' ++ 61 :: r') : w = w' := by
  induction w generalizing w' with
  | nil =>
    cases w' with
    | nil => rfl
    | cons b w' =>
      simp only [List.nil_append, List.cons_append, List.cons.injEq] at h
      have := h2 b (by simp)
      rw [← h.1] at this
      unfold Space at this
      omega
  | cons a w ih =>
    cases w' with
    | nil =>
      simp only [List.nil_append, List.cons_append, List.cons.injEq] at h
      have := h1 a (by simp)
      rw [h.1] at this
      unfold Space at this
      omega
    | cons b w' =>
      simp only [List.cons_append, List.cons.injEq] at h
      rw [h.1, ih (fun x hx => h1 x (by simp [hx])) (fun x hx => h2 x (by simp [hx])) h.2]

theorem bothQuotes_iff {v : Str} {i : Nat} : BetweenQuotes v i ↔ bothQuotes v = true ∧ 1 ≤ i ∧ i + 1 ≤ v.length := by
  constructor
  · rintro ⟨q, y, hq, rfl, h1, h2⟩
    refine ⟨?_, h1, by simp; omega⟩
    unfold bothQuotes
    rw [List.getLast?_append]
    rcases hq with rfl | rfl <;> rfl
  · rintro ⟨h, h1, h2⟩
    have key : ∀ q, (q = 34 ∨ q = 39) → v.head? = some q → v.getLast? = some q → BetweenQuotes v i := by
      intro q hq h3 h4
      cases v with
      | nil => cases h3
      | cons a v =>
        have h3 : a = q := by simpa using h3
        rw [← h3] at h4 hq
        have hne : v ≠ [] := by rintro rfl; simp at h2; omega
        have h5 : v.getLast? = some a := by
          rw [List.getLast?_cons_of_ne_nil hne] at h4
          exact h4
        obtain ⟨y, rfl⟩ := List.getLast?_eq_some_iff.1 h5
        exact ⟨a, y, hq, rfl, h1, by simp at h2; omega⟩
    unfold bothQuotes at h
    simp only [Bool.or_eq_true, Bool.and_eq_true, beq_iff_eq] at h
    rcases h with h | h
    · exact key 34 (.inl rfl) h.1 h.2
    · exact key 39 (.inr rfl) h.1 h.2

theorem notAttr_key {ts1 ts : List Tok} {a : Nat} (h : ts1.map (Tok.key a) = ts.map (Tok.key 0))
    (hm : ∀ m ∈ ts, NotAttr m) : ∀ m ∈ ts1, NotAttr m := by
  intro m h1
  obtain ⟨t', h2, h3, _⟩ := key_mem h h1
  have := hm t' h2
  unfold NotAttr at this ⊢
  rw [← h3]
  exact this

/-- The ranges for a cursor in an attribute with the name in `[a, b]` and the value in `[p, q]`. -/
def valueRanges (a b p q : Nat) (quoted : Bool) (o : Nat) : List (Nat × Nat) :=
  (if o ≤ b then [(a, b)] else if o < p then []
   else if quoted = true ∧ p + 1 ≤ o ∧ o + 1 ≤ q then [(p + 1, q - 1), (p, q)] else [(p, q)]) ++ [(a, q)]

section
variable {n : Node} {e cur : Nat} {l : List (Nat × Nat)} {x : Str} {ts ts1 ts2 : List Tok} {cl : Tok}
  {s0 s1 s2 : Sc} {a : AttrSel}

theorem AttrScan.bare (h : AttrScan c n e cur l x ts ts1 ts2 cl s0 s1 s2 a) {y : Str × Attr}
    (hy : y ∈ n.attributes) (hv : y.2.value = none ∨ y.2.value = some []) (h1 : y.2.offset ≤ cur)
    (h2 : cur ≤ y.2.offset + y.1.length) : l = [(y.2.offset, y.2.offset + y.1.length)] := by
  obtain ⟨pre, t, post, rfl, k1, k2, k3, _, hw⟩ := h.run.attrs y hy
  have hnv : NoValueNext post := by
    rcases hw with hw | ⟨v, w, mid, t2, post2, q1, q2, _⟩
    · exact hw.2
    · rcases hv with hv | hv <;> rw [hv] at q1 <;> cases q1
      exact absurd rfl q2
  clear hw
  obtain ⟨pre1, t1, post1, rfl, j1, j2, j3, j4, j5⟩ := key_split h.key
  have hle := h.le
  have hseq := h.seq
  have hf := h.fold
  rw [List.append_assoc, List.cons_append] at hseq hf
  obtain ⟨g1, g2, g3⟩ := selFold_name (B := cl.offset) (Bd := fun y => isBoundary c.src (y + n.start) = true) hseq
    (.fresh rfl (by simp)) (j1.trans k1) (by omega) (fun t' ht' => h.toks t' (by simp [ht'])) hf
  rw [if_pos (by omega)] at g3
  have hres : a.result = [(t1.offset, t1.stop)] := by
    rcases hnv with hnv | ⟨mid, t2, post2, rfl, q1, q2⟩
    · exact selFold_next g1 (notAttr_key j5 hnv) (.inr h.bracket) (by omega) g3
    · obtain ⟨mid1, t3, post3, rfl, i1, i2, i3, i4, i5⟩ := key_split j5
      rw [List.append_assoc, List.cons_append] at g1 g3
      exact selFold_next g1 (notAttr_key i4 q1) (.inl (i1.trans q2)) (by omega) g3
  rw [h.result, hres]
  simp only [List.map_cons, List.map_nil, j2, j3, k2, k3]

theorem AttrScan.value (h : AttrScan c n e cur l x ts ts1 ts2 cl s0 s1 s2 a) {y : Str × Attr} {v w : Str} {p q : Nat}
    (hy : y ∈ n.attributes) (hv : y.2.value = some v) (hne : v ≠ []) (hw : Spaces w)
    (hat : At c.src y.2.offset (y.1 ++ w ++ b!"=" ++ v)) (hp : p = y.2.offset + (y.1 ++ w ++ b!"=").length)
    (hq : q = p + v.length) (h1 : y.2.offset ≤ cur) (h2 : cur ≤ q) :
    l = valueRanges y.2.offset (y.2.offset + y.1.length) p q (bothQuotes v) cur := by
  obtain ⟨pre, t, post, rfl, k1, k2, k3, _, hwr⟩ := h.run.attrs y hy
  rcases hwr with ⟨hv' | hv', _⟩ | ⟨v', w', mid, t2, post2, q1, q2, rfl, q3, q4, q5, q6, q7, q8⟩
  · rw [hv] at hv'; cases hv'
  · rw [hv] at hv'; cases hv'; exact absurd rfl hne
  rw [hv] at q1
  cases q1
  have hww : w' = w := by
    obtain ⟨r, hr⟩ := hat
    obtain ⟨r', hr'⟩ := q8
    rw [hr] at hr'
    simp only [List.append_assoc, List.append_cancel_left_eq, List.cons_append, List.nil_append] at hr'
    exact (spaces_unique hw q7 hr').symm
  subst hww
  obtain ⟨pre1, t1, post1, rfl, j1, j2, j3, j4, j5⟩ := key_split h.key
  obtain ⟨mid1, t3, post3, rfl, i1, i2, i3, i4, i5⟩ := key_split j5
  have hle := h.le
  have hseq := h.seq
  have hf := h.fold
  have htok := h.toks t3 (by simp)
  have hcl := h.stop
  have hse := h.ste_le
  have hlt := h.run.lt
  have hst := h.run.stop
  have hof := h.offset
  simp only [List.append_assoc, List.cons_append] at hseq hf
  obtain ⟨g1, g2, g3⟩ := selFold_name (B := cl.offset) (Bd := fun y => isBoundary c.src (y + n.start) = true) hseq
    (.fresh rfl (by simp)) (j1.trans k1) (by omega) (fun t' ht' => h.toks t' (by simp [ht'])) hf
  obtain ⟨g4, g5, g6⟩ := selFold_value g1 (notAttr_key i4 q3) (i1.trans q4) (by omega) g3
  have hbq : bytesIn x t3.offset t3.stop = v := by
    rw [h.text, bytesIn_bytesIn (by omega)]
    have e1 : n.start + t3.offset = p := by omega
    have e2 : n.start + t3.stop = p + v.length := by omega
    rw [e1, e2, hp]
    exact bytesIn_of_at (at_append q8).2
  rw [hbq] at g6
  rw [h.result, g6]
  clear g6 g3 g1 hf hseq
  have ep : p = t3.offset + n.start := by omega
  have eq : q = t3.stop + n.start := by omega
  have eb : y.2.offset + y.1.length = t1.stop + n.start := by omega
  have ea : y.2.offset = t1.offset + n.start := by omega
  unfold valueRanges
  rw [eb, ea, ep, eq]
  rw [List.map_append]
  congr 1
  by_cases c1 : cur ≤ t1.stop + n.start
  · rw [if_pos c1, if_pos (show cur - n.start < t3.offset by omega), if_pos (show cur - n.start ≤ t1.stop by omega)]
    rfl
  · rw [if_neg c1]
    by_cases c2 : cur < t3.offset + n.start
    · rw [if_pos c2, if_pos (show cur - n.start < t3.offset by omega), if_neg (show ¬ cur - n.start ≤ t1.stop by omega)]
      rfl
    · rw [if_neg c2, if_neg (show ¬ cur - n.start < t3.offset by omega),
        if_neg (show ¬ cur - n.start ≤ t1.stop by omega)]
      by_cases c3 : bothQuotes v = true ∧ t3.offset + n.start + 1 ≤ cur ∧ cur + 1 ≤ t3.stop + n.start
      · rw [if_pos c3, if_pos ⟨c3.1, by omega, by omega⟩]
        simp only [List.map_cons, List.map_nil]
        congr 2 <;> omega
      · rw [if_neg c3, if_neg (fun hh => c3 ⟨hh.1, by omega, by omega⟩)]
        rfl

end

theorem findNodeAt_leaf_eq {o : Nat} {n : Node} {src : Str} (h : parse u cs void src = .ok roots)
    (hn : InForest roots n) (hc : Covers n o) (hk : ∀ k ∈ n.children, ¬ Covers k o) :
    ∃ ps, findNodeAt roots o = some (n, ps) ∧ Chain roots ps n := by
  have hs := findNodeAt_spec (o := o) (parse_nest h)
  cases hf : findNodeAt roots o with
  | none => rw [hf] at hs; exact absurd hc (hs n hn)
  | some x =>
    obtain ⟨r, ps⟩ := x
    rw [hf] at hs
    have : n = r := by
      rcases hs.all n hn hc with h5 | h5
      · obtain ⟨k, k1, k2⟩ := chain_child (parse_nest h).deep hs.chain hs.covers h5
        exact absurd k2 (hk k k1)
      · exact h5
    subst this
    exact ⟨ps, rfl, hs.chain⟩

/-- Where the inside of the start tag ends. -/
def TagInside (src : Str) (n : Node) (e stop : Nat) : Prop :=
  (OnlyStartTag n ∧ At src (n.stop - 2) b!"/>" ∧ stop = e - 2) ∨
    (¬ (OnlyStartTag n ∧ At src (n.stop - 2) b!"/>") ∧ stop = e - 1)

theorem applicableRanges_wanted {d : TextDoc} {cps : List Nat} {p : Pos} {l : List (Nat × Nat)} {n : Node} {e : Nat}
    (hd : Lawful d) (hu : Utf8 cps d.text) (h : parse u cs void d.text = .ok roots) (hn : InForest roots n)
    (hc : Covers n (d.offsetAt p)) (hk : ∀ k ∈ n.children, ¬ Covers k (d.offsetAt p)) (he : n.startTagEnd = some e)
    (hw : AttrsWanted n (d.offsetAt p)) (ha : applicableRanges u cs d roots p = .ok l) :
    ∃ attrs stop res, attributeRanges u cs d n (d.offsetAt p) = .ok attrs ∧ l = attrs ++ (n.start + 1, stop) :: res ∧
      TagInside d.text n e stop := by
  have hnx := asciiNext_of_utf8 hu
  obtain ⟨ps, hf, _⟩ := findNodeAt_leaf_eq h hn hc hk
  unfold applicableRanges at ha
  simp only [hf, he] at ha
  rcases hw with hon | ⟨ste, ets, h1, h2, h3, h4⟩
  · obtain ⟨h1, h2⟩ := id hon
    rw [he] at h1
    cases h1
    rw [h2] at ha
    simp only at ha
    unfold voidRanges at ha
    rw [if_neg (by simp)] at ha
    obtain ⟨x0, h0, ha⟩ := bind_ok ha
    obtain ⟨h2, rfl⟩ := subU_ok h0
    obtain ⟨x, hx, ha⟩ := bind_ok ha
    have hcl := closeText_iff hd h2 ((parse_done h hn).ste_bd hnx he).1 hx
    obtain ⟨attrs, hat, ha⟩ := bind_ok ha
    cases ha
    refine ⟨attrs, _, _, hat, rfl, ?_⟩
    by_cases hx2 : x = b!"/>"
    · rw [if_pos hx2]
      exact .inl ⟨hon, hcl.1 hx2, rfl⟩
    · rw [if_neg hx2]
      exact .inr ⟨fun hh => hx2 (hcl.2 hh.2), rfl⟩
  · rw [he] at h1
    cases h1
    rw [h2] at ha
    simp only at ha
    unfold pairRanges at ha
    simp only at ha
    rw [if_pos ⟨h3, h4⟩] at ha
    obtain ⟨x, hx, ha⟩ := bind_ok ha
    obtain ⟨h1, rfl⟩ := subU_ok hx
    obtain ⟨attrs, hat, ha⟩ := bind_ok ha
    cases ha
    refine ⟨attrs, _, _, hat, rfl, .inr ⟨fun hh => ?_, rfl⟩⟩
    rw [hh.1.2] at h2
    cases h2

/-- The offsets of an attribute are in the start tag. -/
theorem attribute_in_tag {src : Str} {n : Node} {e : Nat} {y : Str × Attr} (h : parse u cs void src = .ok roots)
    (hn : InForest roots n) (he : n.startTagEnd = some e) (hy : y ∈ n.attributes) :
    n.start < y.2.offset ∧ y.2.offset + y.1.length < e ∧
      ∀ v w, y.2.value = some v → Spaces w → At src y.2.offset (y.1 ++ w ++ b!"=" ++ v) → v ≠ [] →
        y.2.offset + (y.1 ++ w ++ b!"=" ++ v).length < e := by
  obtain ⟨s0, ts, s1, s2, hs⟩ := parse_start h hn he
  have hdone := parse_done h hn
  have hl : n.start < src.length := (List.getElem?_eq_some_iff.1 hs.inner.opens.opn).1
  have hcon := (hs.inner.run.contiguous (by rw [hs.inner.pos]; exact hl)).1
  have hp := hs.inner.pos
  have hlt := hs.lt
  have hst := hs.stop
  obtain ⟨pre, t, post, rfl, k1, k2, k3, _, hwr⟩ := hs.attrs y hy
  have m1 := contiguous_ge hcon (t := t) (by simp)
  have m2 := (hcon.mem (t := t) (by simp)).2
  refine ⟨by omega, by omega, fun v w hv hw hat hne => ?_⟩
  rcases hwr with ⟨hv' | hv', _⟩ | ⟨v', w', mid, t2, post2, q1, q2, rfl, q3, q4, q5, q6, q7, q8⟩
  · rw [hv] at hv'; cases hv'
  · rw [hv] at hv'; cases hv'; exact absurd rfl hne
  rw [hv] at q1
  cases q1
  have hww : w' = w := by
    obtain ⟨r, hr⟩ := hat
    obtain ⟨r', hr'⟩ := q8
    have hr'' : src.drop y.2.offset = _ := hr'
    rw [hr] at hr''
    simp only [List.append_assoc, List.append_cancel_left_eq, List.cons_append, List.nil_append] at hr''
    exact (spaces_unique hw q7 hr'').symm
  subst hww
  have m3 := (hcon.mem (t := t2) (by simp)).2
  rw [List.length_append]
  omega

theorem tag_no_child {src : Str} {n : Node} {e o : Nat} (h : parse u cs void src = .ok roots) (hn : InForest roots n)
    (he : n.startTagEnd = some e) (ho : o < e) : ∀ k ∈ n.children, ¬ Covers k o := by
  intro k hk hc
  have := ((parse_done h hn).ste e he).2.2.1.mem hk
  unfold Covers at hc
  omega

/-- The chain for a cursor in the start tag of the innermost element. -/
theorem chain_wanted {d : TextDoc} {cps : List Nat} {p : Pos} {s : SelRange} {n : Node} {e : Nat}
    (hd : Lawful d) (hu : Utf8 cps d.text) (h : parse u cs void d.text = .ok roots) (hn : InForest roots n)
    (he : n.startTagEnd = some e) (hc : Covers n (d.offsetAt p)) (hlt : d.offsetAt p < e)
    (hw : AttrsWanted n (d.offsetAt p)) (hs : selectionRange u cs d roots p = .ok s) :
    ∃ attrs stop res x ts ts1 ts2 cl s0 s1 s2 a,
      AttrScan (parserCfg u cs d.text) n e (d.offsetAt p) attrs x ts ts1 ts2 cl s0 s1 s2 a ∧
      TagInside d.text n e stop ∧ chainRanges s =
        (squeeze (attrs ++ (n.start + 1, stop) :: res)).map (fun r => ⟨d.posAt r.1, d.posAt r.2⟩) := by
  obtain ⟨l, hl, hr⟩ := selectionRange_chain hs
  obtain ⟨attrs, stop, res, h1, rfl, h2⟩ := applicableRanges_wanted hd hu h hn hc (tag_no_child h hn he hlt) he hw hl
  obtain ⟨x, ts, ts1, ts2, cl, s0, s1, s2, a, hsc⟩ := attributeRanges_scan hd hu h hn he h1
  refine ⟨attrs, stop, res, x, ts, ts1, ts2, cl, s0, s1, s2, a, hsc, h2, ?_⟩
  rcases hr with ⟨hr, _⟩ | hr
  · simp at hr
  · exact hr

theorem begins_of {d : TextDoc} {s : SelRange} {l l' : List (Nat × Nat)}
    (hc : chainRanges s = (squeeze (l ++ l')).map (fun r => ⟨d.posAt r.1, d.posAt r.2⟩)) (h : l.Pairwise (· ≠ ·))
    (hne : l ≠ []) : Begins d s l := by
  obtain ⟨r, hr, _⟩ := squeeze_append (l' := l') h hne
  rw [hr, List.map_append] at hc
  exact ⟨_, hc.symm⟩

theorem valueRanges_ne {a b p q o : Nat} {qt : Bool} (h1 : a ≤ b) (h2 : b < p) (h3 : p < q) :
    (valueRanges a b p q qt o).Pairwise (· ≠ ·) ∧ valueRanges a b p q qt o ≠ [] := by
  unfold valueRanges
  refine ⟨?_, by simp⟩
  split
  · simp; omega
  · split
    · simp
    · split
      · simp; omega
      · simp; omega

/-! ### When the order fails -/

theorem posLe_antisymm {a b : Pos} (h1 : PosLe a b) (h2 : PosLe b a) : a = b := by
  unfold PosLe at *
  cases a; cases b
  simp only [Pos.mk.injEq] at *
  omega

theorem posLe_iff {d : TextDoc} (hd : Lawful d) {a b : Nat} (ha : isBoundary d.text a = true)
    (hb : isBoundary d.text b = true) : PosLe (d.posAt a) (d.posAt b) ↔ a ≤ b := by
  refine ⟨fun h => ?_, hd.mono _ _⟩
  rcases Nat.lt_or_ge b a with hlt | hge
  · have := posLe_antisymm h (hd.mono _ _ (Nat.le_of_lt hlt))
    have h1 := hd.roundTrip a (isBoundary_le ha) ha
    have h2 := hd.roundTrip b (isBoundary_le hb) hb
    rw [this] at h1
    omega
  · exact hge

theorem chain_overlap {d : TextDoc} {cps : List Nat} {p : Pos} {s : SelRange} {n : Node}
    (hd : Lawful d) (hu : Utf8 cps d.text) (h : parse u cs void d.text = .ok roots) (hn : InForest roots n)
    (hc : Covers n (d.offsetAt p)) (hon : OnlyStartTag n) (hsb : SlashBehind d.text n (d.offsetAt p))
    (hs : selectionRange u cs d roots p = .ok s) : ¬ (chainRanges s).Pairwise StrictlyInside := by
  obtain ⟨hat, y, hy, v, w, q1, q2, q3, q4, q5⟩ := id hsb
  obtain ⟨hy, ho⟩ := List.mem_filter.1 hy
  have ho : y.2.offset ≤ d.offsetAt p := by simpa using ho
  obtain ⟨attrs, stop, res, x, ts, ts1, ts2, cl, s0, s1, s2, a, hsc, hin, hch⟩ :=
    chain_wanted hd hu h hn hon.1 hc hc.2 (.inl hon) hs
  have hne : v ≠ [] := by rintro rfl; cases q2
  have hcs := hc.2
  have hv := hsc.value hy q1 hne q3 q4 rfl rfl ho (by rw [List.length_append] at q5; omega)
  have hstop : stop = n.stop - 2 := by
    rcases hin with ⟨_, _, h1⟩ | ⟨h1, _⟩
    · exact h1
    · exact absurd ⟨hon, hat⟩ h1
  have e : y.2.offset + (y.1 ++ w ++ b!"=").length + v.length = n.stop - 1 := by
    rw [List.length_append] at q5; omega
  rw [hv, hstop] at hch
  unfold valueRanges at hch
  rw [e, List.append_assoc] at hch
  have h2 : 2 ≤ n.stop := by
    simp only [List.length_append, List.length_cons] at e
    omega
  obtain ⟨r, r', hr⟩ := squeeze_adjacent (a := (y.2.offset, n.stop - 1)) (b := (n.start + 1, n.stop - 2)) (l' := res)
    (l := if d.offsetAt p ≤ y.2.offset + y.1.length then [(y.2.offset, y.2.offset + y.1.length)]
      else if d.offsetAt p < y.2.offset + (y.1 ++ w ++ b!"=").length then []
      else if bothQuotes v = true ∧ y.2.offset + (y.1 ++ w ++ b!"=").length + 1 ≤ d.offsetAt p ∧
          d.offsetAt p + 1 ≤ n.stop - 1 then
        [(y.2.offset + (y.1 ++ w ++ b!"=").length + 1, n.stop - 1 - 1),
          (y.2.offset + (y.1 ++ w ++ b!"=").length, n.stop - 1)]
      else [(y.2.offset + (y.1 ++ w ++ b!"=").length, n.stop - 1)])
    (by intro hh; simp only [Prod.mk.injEq] at hh; omega)
  rw [List.singleton_append, hr, List.map_append, List.map_cons, List.map_cons] at hch
  intro hp
  rw [hch] at hp
  have := (List.pairwise_cons.1 (List.pairwise_append.1 hp).2.1).1 _ (List.mem_cons_self ..)
  have hb1 := isBoundary_ascii (at_get0 hat) (by omega)
  have hb2 := isBoundary_ascii (at_get1 hat) (by omega)
  have e2 : n.stop - 2 + 1 = n.stop - 1 := by omega
  rw [e2] at hb2
  have := (posLe_iff hd hb2 hb1).1 this.2.1
  omega

/-! ### When the cursor is outside of a range -/

theorem chain_outside {d : TextDoc} {cps : List Nat} {p : Pos} {s : SelRange} (hd : Lawful d) (hu : Utf8 cps d.text)
    (h : parse u cs void d.text = .ok roots) (hp : Exact d p) (hs : selectionRange u cs d roots p = .ok s)
    (hin : ∀ r ∈ chainRanges s, InRange p r) : Among roots (d.offsetAt p) := by
  have hnx := asciiNext_of_utf8 hu
  have hbp := (hd.inRange p).2
  obtain ⟨l, hl, hch⟩ := selectionRange_chain hs
  unfold applicableRanges at hl
  simp only at hl
  have hsp := findNodeAt_spec (o := d.offsetAt p) (parse_nest h)
  cases hf : findNodeAt roots (d.offsetAt p) with
  | some x =>
    obtain ⟨n, ps⟩ := x
    rw [hf] at hsp
    cases ps with
    | nil => exact .inr ⟨n, n, hsp.chain, hsp.chain, hsp.covers.1, Nat.le_of_lt hsp.covers.2⟩
    | cons q ps =>
      have hq := chain_covers (parse_nest h).deep hsp.chain hsp.covers q (by simp)
      exact .inr ⟨q, q, hsp.chain.1, hsp.chain.1, hq.1, Nat.le_of_lt hq.2⟩
  | none =>
    rw [hf] at hl
    cases hl
    cases hroots : roots with
    | nil => exact .inl rfl
    | cons a t =>
      have hb : roots.getLast? = some (roots.getLast (by simp [hroots])) := List.getLast?_eq_some_getLast _
      have ha : roots.head? = some a := by rw [hroots]; rfl
      generalize roots.getLast (by simp [hroots]) = b at hb
      have hr : allParentRanges [] roots = [(a.start, b.stop)] := by
        show [] ++ rootsRange roots = _
        unfold rootsRange
        rw [ha, hb]; rfl
      rw [hr] at hch
      rcases hch with ⟨hch, _⟩ | hch
      · cases hch
      · have := hin ⟨d.posAt a.start, d.posAt b.stop⟩ (by rw [hch]; simp [squeeze])
        have ham := List.mem_of_head? ha
        have hbm := List.mem_of_getLast? hb
        unfold InRange at this
        simp only at this
        rw [← hp] at this
        rw [← hroots]
        exact .inr ⟨a, b, ham, hbm,
          (posLe_iff hd ((parse_done h (.root ham)).start_bd hnx).1 hbp).1 this.1,
          (posLe_iff hd hbp (parse_stop_bd hnx h (.root hbm))).1 this.2⟩

theorem chain_bracket {d : TextDoc} {cps : List Nat} {p : Pos} {s : SelRange} {n : Node}
    (hd : Lawful d) (hu : Utf8 cps d.text) (h : parse u cs void d.text = .ok roots) (hp : Exact d p)
    (hn : InForest roots n) (hc : Covers n (d.offsetAt p)) (hon : OnlyStartTag n)
    (hs : selectionRange u cs d roots p = .ok s) (hin : ∀ r ∈ chainRanges s, InRange p r) :
    ¬ OnBracket d.text n (d.offsetAt p) := by
  have hnx := asciiNext_of_utf8 hu
  have hbp := (hd.inRange p).2
  obtain ⟨attrs, stop, res, x, ts, ts1, ts2, cl, s0, s1, s2, a, hsc, htag, hch⟩ :=
    chain_wanted hd hu h hn hon.1 hc hc.2 (.inl hon) hs
  have := hin ⟨d.posAt (n.start + 1), d.posAt stop⟩ (by
    rw [hch]
    exact List.mem_map.2 ⟨(n.start + 1, stop), (mem_squeeze _ _).2 (by simp), rfl⟩)
  unfold InRange at this
  simp only at this
  rw [← hp] at this
  have hsb := (parse_done h hn).start_bd hnx
  have h1 := (posLe_iff hd hsb.2 hbp).1 this.1
  rintro (ho | ⟨hat, ho⟩)
  · omega
  · have hst : stop = n.stop - 2 := by
      rcases htag with ⟨_, _, h1⟩ | ⟨h1, _⟩
      · exact h1
      · exact absurd ⟨hon, hat⟩ h1
    have hb1 := isBoundary_ascii (at_get0 hat) (by omega)
    rw [hst] at this
    have := (posLe_iff hd hbp hb1).1 this.2
    have := hc.1
    omega

theorem attrsWanted_of {src : Str} {n : Node} {e o : Nat} (h : parse u cs void src = .ok roots) (hn : InForest roots n)
    (he : n.startTagEnd = some e) (hw : n.endTagStart ≠ none ∨ n.stop = e) (h1 : n.start < o) (h2 : o < e) :
    Covers n o ∧ AttrsWanted n o := by
  have hd := (parse_done h hn).ste e he
  have hl := hd.2.2.1.le
  have hce := hd.2.2.2
  refine ⟨⟨by omega, by omega⟩, ?_⟩
  cases hets : n.endTagStart with
  | none =>
    rcases hw with hw | hw
    · exact absurd hets hw
    · subst hw; exact .inl ⟨he, hets⟩
  | some b => exact .inr ⟨e, b, he, hets, h1, h2⟩

theorem chain_end_tag {d : TextDoc} {p : Pos} {s : SelRange} {n : Node} {a : Nat}
    (h : parse u cs void d.text = .ok roots) (hn : InForest roots n) (ha : n.endTagStart = some a)
    (h1 : a + 2 ≤ d.offsetAt p) (h2 : d.offsetAt p < n.stop) (hs : selectionRange u cs d roots p = .ok s) :
    Begins d s [(a + 2, n.stop - 1), (n.start, n.stop)] := by
  have hdone := parse_done h hn
  cases he : n.startTagEnd with
  | none =>
    have := (hdone.noste he).2.1
    rw [this] at ha
    cases ha
  | some e =>
    obtain ⟨hse, _, hsib, hce⟩ := hdone.ste e he
    have hcee : contentEnd n = a := by unfold contentEnd; rw [ha]; rfl
    rw [hcee] at hsib hce
    have hle := hsib.le
    have hc : Covers n (d.offsetAt p) := ⟨by omega, h2⟩
    have hk : ∀ k ∈ n.children, ¬ Covers k (d.offsetAt p) := by
      intro k hk hck
      have := hsib.mem hk
      unfold Covers at hck
      omega
    obtain ⟨ps, hf, _⟩ := findNodeAt_leaf_eq h hn hc hk
    obtain ⟨l, hl, hch⟩ := selectionRange_chain hs
    unfold applicableRanges at hl
    simp only [hf, he, ha] at hl
    unfold pairRanges at hl
    simp only at hl
    rw [if_neg (by omega), if_neg (by omega), if_pos h1] at hl
    obtain ⟨x, hx, hl⟩ := bind_ok hl
    obtain ⟨_, rfl⟩ := subU_ok hx
    cases hl
    rcases hch with ⟨hch, _⟩ | hch
    · cases hch
    · exact begins_of (l := [(a + 2, n.stop - 1), (n.start, n.stop)]) hch (by simp; omega) (by simp)

end Html
