import Verif.Spec.Behind
import Verif.Proof.Cut
import Verif.Proof.Highlight
import Verif.Proof.HoverTree

/-! # What is behind an element does not matter for its tags -/

namespace Html
open Spec

theorem at_front {a x y w : Str} {i : Nat} (h : At (a ++ x) i w) (hl : i + w.length ≤ a.length) : At (a ++ y) i w := by
  obtain ⟨r, hr⟩ := h
  refine ⟨(a.drop i).drop w.length ++ y, ?_⟩
  rw [List.drop_append_of_le_length (by omega)] at hr ⊢
  have h1 : (a.drop i).take w.length = w := by
    have := congrArg (List.take w.length) hr
    rw [List.take_append_of_le_length (by rw [List.length_drop]; omega), List.take_left'] at this
    · exact this
    · rfl
  rw [← List.append_assoc]
  conv => rhs; lhs; rw [← h1]
  rw [List.length_take_of_le (by rw [List.length_drop]; omega), List.take_append_drop]

theorem NameIs.front {u : Uni} {q y y' : Str} {i hi : Nat} {t : Str} (hq : Whole q)
    (h : NameIs u (q ++ 62 :: y) i (some t) hi) (hi' : hi ≤ q.length + 1) : NameIs u (q ++ 62 :: y') i (some t) hi := by
  obtain ⟨w, h1, h2, h3, h4, h5, h6⟩ := h.nameAt
  have ht := List.length_pos_iff.2 h5.1.1
  have hb : i + w.length ≤ q.length := by omega
  have h7 : elementNameLen u ((q ++ 62 :: y').drop (i + w.length)) = t.length := by
    rw [List.drop_append_of_le_length hb] at h4 ⊢
    rw [← h4]
    exact firstRunLen_local (nameFirst_close _) (nameRest_close _) (whole_drop hq _) _ _
  have h8 : i + w.length + t.length ≤ q.length := by
    rw [List.drop_append_of_le_length hb] at h4
    have := firstRunLen_le_close (nameFirst_close u) (nameRest_close u) (q.drop (i + w.length)) y
    unfold elementNameLen at h4
    rw [h4, List.length_drop] at this
    omega
  have h9 : At (q ++ 62 :: y') i (w ++ t) := at_front h2 (by rw [List.length_append]; omega)
  have hget : ∀ k, k ≤ q.length → (q ++ 62 :: y')[k]? = (q ++ 62 :: y)[k]? := by
    intro k hk
    rcases Nat.lt_or_ge k q.length with h | h
    · rw [List.getElem?_append_left h, List.getElem?_append_left h]
    · have : k = q.length := by omega
      subst this; simp
  have h10 : isBoundary (q ++ 62 :: y') (i + w.length) = true := by
    unfold isBoundary at h3 ⊢
    rw [hget _ hb]
    rw [if_neg (by simp; omega)] at h3 ⊢
    exact h3
  refine ⟨⟨w, h1, h9, h5.1, fun b hb' => h5.2.2.1 b ?_, h6⟩, fun t' ht' => ?_⟩
  · rw [hget _ h8] at hb'; exact hb'
  · cases ht'
    exact ⟨w, h1, h9, h6, h10, h7⟩

theorem nameAt_unique {src : Str} {i k k' : Nat} {t : Str} (h : NameAt src i t k) (h' : NameAt src i t k') : k = k' := by
  obtain ⟨h1, h2, _, w, h3, h4, rfl⟩ := h
  obtain ⟨_, h2', _, w', h3', h4', rfl⟩ := h'
  have e : ∀ {w : Str}, At src i w → At src (i + w.length) t → At src i (w ++ t) := by
    intro w ⟨r, hr⟩ ⟨r', hr'⟩
    refine ⟨r', ?_⟩
    rw [← List.drop_drop, hr, List.drop_left'] at hr'
    · rw [hr, hr', List.append_assoc]
    · rfl
  rw [blanks_unique h1 h3 h3' (e h4 h2) (e h4' h2')]

theorem nameAt_front {q y y' : Str} {i k : Nat} {t : Str} (h : NameAt (q ++ 62 :: y) i t k) (hl : k + t.length ≤ q.length) :
    NameAt (q ++ 62 :: y') i t k := by
  obtain ⟨h1, h2, h3, w, h4, h5, rfl⟩ := h
  refine ⟨h1, at_front h2 hl, fun b hb => h3 b ?_, w, h4, at_front h5 (by omega), rfl⟩
  rw [← hb]
  rcases Nat.lt_or_ge (i + w.length + t.length) q.length with h | h
  · rw [List.getElem?_append_left h, List.getElem?_append_left h]
  · have : i + w.length + t.length = q.length := by omega
    rw [this]; simp

/-- The range of the name is the same in both documents. -/
theorem range_front {u : Uni} {cs : Bool} {a : Str} {d d' : TextDoc} {n : Node} {i j hi : Nat} {t : Str} {tt : TT}
    (hb : BeginAlike a d d') {cps : List Nat} (hu : Utf8 cps a) (hlast : a[n.stop - 1]? = some 62) (hs : n.stop ≤ a.length)
    (hname : NameIs u d.text j (some t) hi) (hi' : hi ≤ n.stop)
    (hr : ∀ (d : TextDoc), (∃ x, d.text = a ++ x) → NameIs u d.text j (some t) hi → ∃ k, NameAt d.text j t k ∧ k + t.length ≤ hi ∧
      getTagNameRange u cs d tt i = .ok (some ⟨d.posAt k, d.posAt (k + t.length)⟩)) :
    getTagNameRange u cs d' tt i = getTagNameRange u cs d tt i := by
  obtain ⟨x, hx⟩ := hb.left
  obtain ⟨y, hy⟩ := hb.right
  have hlt := (List.getElem?_eq_some_iff.1 hlast).1
  have hq := whole_of_utf8 (a := 0) hu hlast (by decide)
  rw [show bytesIn a 0 (n.stop - 1) = a.take (n.stop - 1) by simp [bytesIn]] at hq
  have ea : ∀ z : Str, a ++ z = a.take (n.stop - 1) ++ 62 :: (a.drop n.stop ++ z) := by
    intro z
    have h1 : a = a.take (n.stop - 1) ++ 62 :: a.drop n.stop := by
      conv => lhs; rw [← List.take_append_drop (n.stop - 1) a]
      rw [List.drop_eq_getElem_cons hlt, (List.getElem?_eq_some_iff.1 hlast).2]
      by_cases h0 : n.stop = 0
      · obtain ⟨k, h1, h2, _⟩ := hr d hb.left hname
        have := List.length_pos_iff.2 h1.1.1
        omega
      · rw [show n.stop - 1 + 1 = n.stop by omega]
    conv => lhs; rw [h1]
    simp
  have hql : (a.take (n.stop - 1)).length = n.stop - 1 := by rw [List.length_take]; omega
  have hn' : NameIs u d'.text j (some t) hi := by
    rw [hx, ea] at hname
    rw [hy, ea]
    exact hname.front hq (by rw [hql]; omega)
  obtain ⟨k, h1, h2, h3⟩ := hr d hb.left hname
  obtain ⟨k', h1', h2', h3'⟩ := hr d' hb.right hn'
  have hk : k = k' := by
    obtain ⟨w, g1, g2, g3, g4, g5, g6⟩ := hname.nameAt
    obtain ⟨w', g1', g2', g3', g4', g5', g6'⟩ := hn'.nameAt
    have e1 := nameAt_unique h1 g5
    have e2 := nameAt_unique h1' g5'
    have : w.length = w'.length := by
      refine blanks_unique g5.1 g1 g1' (src := d'.text) (i := j) ?_ g2'
      rw [hx] at g2
      rw [hy]
      exact at_front g2 (by rw [List.length_append]; omega)
    omega
  subst hk
  rw [h3, h3', hb.pos _ (by omega), hb.pos _ (by omega)]

variable {u : Uni} {cs : Bool} {void : List Str} {a : Str} {d d' : TextDoc} {roots roots' : List Node} {n : Node} {p : Pos}

/-- An element that is complete in front of the place is in the other tree as well. -/
theorem complete_kept {x y : Str} (ha : EndsInContent u cs a) (h : parse u cs void (a ++ x) = .ok roots)
    (h' : parse u cs void (a ++ y) = .ok roots') (hn : InForest roots n) (hc : AllInFront a n) : InForest roots' n := by
  have hlt := (parse_done h hn).lt
  have hs := hc.stop
  obtain ⟨m, h2, h3, h4⟩ := cut_transfer ha h h' hn (by omega)
  have ho : ¬ OpenAt a.length n := by
    rintro ⟨_, h5 | ⟨h5, h6⟩⟩
    · omega
    · have := hc.closed
      rw [h6.1] at this; cases this
  unfold cutImage at h4
  rw [if_neg ho] at h4
  split at h4
  · have := hc.closed
    rw [← h4, cutNode_eq] at this
    cases this
  · rw [h4] at h2; exact h2

/-- Of an element whose start tag is in front of the place there is one with the same start tag in the other tree. -/
theorem start_kept {x y : Str} {e : Nat} (ha : EndsInContent u cs a) (h : parse u cs void (a ++ x) = .ok roots)
    (h' : parse u cs void (a ++ y) = .ok roots') (hn : InForest roots n) (he : n.startTagEnd = some e) (hl : e ≤ a.length) :
    ∃ m, InForest roots' m ∧ m.start = n.start ∧ m.tag = n.tag ∧ m.startTagEnd = some e ∧ m.attributes = n.attributes := by
  have hd := (parse_done h hn).ste e he
  obtain ⟨m, h2, h3, h4⟩ := cut_transfer ha h h' hn (by omega)
  refine ⟨m, h2, ?_⟩
  have e1 : ∀ k : Node, (cutImage a.length k).start = k.start ∧ (cutImage a.length k).tag = k.tag ∧
      (cutImage a.length k).startTagEnd = k.startTagEnd ∧ (cutImage a.length k).attributes = k.attributes := by
    intro k
    unfold cutImage
    split
    · rw [cutNode_eq]; exact ⟨rfl, rfl, rfl, rfl⟩
    · exact ⟨rfl, rfl, rfl, rfl⟩
  obtain ⟨a1, a2, a3, a4⟩ := e1 m
  obtain ⟨b1, b2, b3, b4⟩ := e1 n
  rw [← a1, ← a2, ← a3, ← a4, h4, b1, b2, b3, b4]
  exact ⟨rfl, rfl, he, rfl⟩

/-- The element at the cursor is found in both trees. -/
theorem found_both (ha : EndsInContent u cs a) (hb : BeginAlike a d d')
    (h : parse u cs void d.text = .ok roots) (h' : parse u cs void d'.text = .ok roots') (hp : d'.offsetAt p = d.offsetAt p)
    (hn : Innermost roots n (d.offsetAt p)) (hc : AllInFront a n) :
    InForest roots' n ∧ ∃ ps ps', findNodeAt roots (d.offsetAt p) = some (n, ps) ∧
      findNodeAt roots' (d'.offsetAt p) = some (n, ps') := by
  obtain ⟨x, hx⟩ := hb.left
  obtain ⟨y, hy⟩ := hb.right
  have h1 : InForest roots' n := complete_kept ha (hx ▸ h) (hy ▸ h') hn.mem hc
  obtain ⟨ps, h2⟩ := findNodeAt_of_covers h hn.mem hn.covers hn.inner
  obtain ⟨ps', h3⟩ := findNodeAt_of_covers h' h1 hn.covers hn.inner
  rw [hp]
  exact ⟨h1, ps, ps', h2, h3⟩

/-- A closed element has a complete start tag. -/
theorem closed_start (h : parse u cs void d.text = .ok roots) (hn : InForest roots n) (hc : n.closed = true) :
    ∃ s, n.startTagEnd = some s ∧ s ≤ n.stop ∧ n.start + 1 + nameLen n < s := by
  have hd := parse_done h hn
  cases hs : n.startTagEnd with
  | none => rw [(hd.noste hs).2.2.1] at hc; cases hc
  | some s =>
    obtain ⟨_, _, h1, h2⟩ := hd.ste s hs
    have := h1.le
    exact ⟨s, rfl, by omega, nameLen_before_close h hn hs⟩

theorem linked_front (ha : EndsInContent u cs a) (hb : BeginAlike a d d')
    (h : parse u cs void d.text = .ok roots) (h' : parse u cs void d'.text = .ok roots') (hp : d'.offsetAt p = d.offsetAt p)
    (hn : Innermost roots n (d.offsetAt p)) (hc : AllInFront a n) (hf : NameFits a n) :
    findLinkedEditingRanges d' p roots' = findLinkedEditingRanges d p roots := by
  obtain ⟨_, ps, ps', h1, h2⟩ := found_both ha hb h h' hp hn hc
  unfold findLinkedEditingRanges
  simp only [hp] at h2 ⊢
  simp only [h1, h2, bind, Option.bind]
  cases he : n.endTagStart with
  | none => rfl
  | some e =>
    have hl := hf e he
    obtain ⟨s, _, h3, h4⟩ := closed_start h hn.mem hc.closed
    have hst := hc.stop
    unfold nameLen at hl h4
    cases ht : n.tag with
    | none =>
      simp only [ht, Option.getD_none, List.length_nil, Nat.add_zero] at hl h4 ⊢
      rw [hb.pos _ (by omega), hb.pos _ (by omega)]
    | some t =>
      simp only [ht, Option.getD_some] at hl h4 ⊢
      rw [hb.pos _ (by omega), hb.pos _ (by omega), hb.pos _ (by omega), hb.pos _ (by omega)]

theorem matching_front (ha : EndsInContent u cs a) (hb : BeginAlike a d d')
    (h : parse u cs void d.text = .ok roots) (h' : parse u cs void d'.text = .ok roots') (hp : d'.offsetAt p = d.offsetAt p)
    (hn : Innermost roots n (d.offsetAt p)) (hc : AllInFront a n) (hf : NameFits a n) :
    findMatchingTagPosition d' p roots' = findMatchingTagPosition d p roots := by
  obtain ⟨_, ps, ps', h1, h2⟩ := found_both ha hb h h' hp hn hc
  unfold findMatchingTagPosition
  simp only [hp] at h2 ⊢
  simp only [h1, h2, bind, Option.bind]
  cases ht : n.tag with
  | none => rfl
  | some t =>
    cases he : n.endTagStart with
    | none => rfl
    | some e =>
      have hl := hf e he
      obtain ⟨s, _, h3, h4⟩ := closed_start h hn.mem hc.closed
      have hst := hc.stop
      have e1 : nameLen n = t.length := by unfold nameLen; rw [ht]; rfl
      dsimp only
      split
      · rw [hb.pos _ (by omega)]
      · split
        · rw [hb.pos _ (by omega)]
        · rfl

theorem rename_front (ha : EndsInContent u cs a) (hb : BeginAlike a d d')
    (h : parse u cs void d.text = .ok roots) (h' : parse u cs void d'.text = .ok roots') (hp : d'.offsetAt p = d.offsetAt p)
    (hn : Innermost roots n (d.offsetAt p)) (hc : AllInFront a n) (hf : NameFits a n) (new : Str) :
    doRename d' p new roots' = doRename d p new roots := by
  obtain ⟨_, ps, ps', h1, h2⟩ := found_both ha hb h h' hp hn hc
  unfold doRename
  simp only [hp] at h2 ⊢
  simp only [h1, h2, bind, Option.bind]
  cases ht : n.tag with
  | none => rfl
  | some t =>
    obtain ⟨s, _, h3, h4⟩ := closed_start h hn.mem hc.closed
    have hst := hc.stop
    have e1 : nameLen n = t.length := by unfold nameLen; rw [ht]; rfl
    dsimp only
    split
    · rw [hb.pos _ (by omega), hb.pos _ (by omega)]
      cases he : n.endTagStart with
      | none => rfl
      | some e =>
        have hl := hf e he
        dsimp only
        rw [hb.pos _ (by omega), hb.pos _ (by omega)]
    · rfl

theorem highlights_front {cps : List Nat} (ha : EndsInContent u cs a) (hb : BeginAlike a d d') (hu : Utf8 cps a)
    (h : parse u cs void d.text = .ok roots) (h' : parse u cs void d'.text = .ok roots') (hp : d'.offsetAt p = d.offsetAt p)
    (hn : Innermost roots n (d.offsetAt p)) (hc : AllInFront a n) :
    findDocumentHighlights u cs d' p roots' = findDocumentHighlights u cs d p roots := by
  obtain ⟨hm, ps, ps', h1, h2⟩ := found_both ha hb h h' hp hn hc
  unfold findDocumentHighlights
  rw [h1, h2]
  have hd := parse_done h hn.mem
  have hd' := parse_done h' hm
  cases ht : n.tag with
  | none => simp [ht]
  | some t =>
    obtain ⟨s, hs, h3, h4⟩ := closed_start h hn.mem hc.closed
    have e1 : getTagNameRange u cs d' .StartTag n.start = getTagNameRange u cs d .StartTag n.start := by
      have hname := hd.name
      rw [ht] at hname
      refine range_front hb hu hc.bracket hc.stop hname (by rw [hs]; exact h3) fun z ⟨x, hz⟩ hnz => ?_
      refine getTagNameRange_start ?_ hnz
      obtain ⟨y, hy⟩ := hb.left
      have h5 : d.text[n.start]? = some 60 := hd.opn
      have h6 := hd.lt
      have h7 := hc.stop
      rw [hy, List.getElem?_append_left (by omega)] at h5
      rw [hz, List.getElem?_append_left (by omega)]
      exact h5
    have e2 : ∀ e, n.endTagStart = some e → getTagNameRange u cs d' .EndTag e = getTagNameRange u cs d .EndTag e := by
      intro e he
      obtain ⟨_, hlt, _, name, hsame, hn'⟩ := hd.ets e he
      rw [ht] at hsame
      obtain ⟨t', rfl⟩ : ∃ t', name = some t' := by
        cases name with
        | none => simp [SameName] at hsame
        | some t' => exact ⟨t', rfl⟩
      have hn'' : NameIs u d.text (e + 2) (some t') n.stop := by
        rcases hn' with hn' | hn'
        · exact hn'.2.mono (by omega)
        · exact hn'.2
      refine range_front hb hu hc.bracket hc.stop hn'' (Nat.le_refl _) fun z ⟨x, hz⟩ hnz => ?_
      refine getTagNameRange_end ?_ hnz
      obtain ⟨y, hy⟩ := hb.left
      obtain ⟨w, _, _, _, _, _, h6⟩ := hn''.nameAt
      have h7 := hc.stop
      have hlt : At d.text e b!"</" := hlt
      rw [hy] at hlt
      rw [hz]
      exact at_front hlt (by show e + 2 ≤ _; omega)
    simp only [ht, Option.isNone_some, Bool.false_eq_true, if_false, e1]
    cases he : n.endTagStart with
    | none => simp only [Node.isSelfClosing, he, Option.isNone_none, if_true]
    | some e =>
      simp only [Node.isSelfClosing, he, Option.isNone_some, Bool.false_eq_true, if_false, unwrap, bind, Except.bind, e2 e he]

/-! ### Hovering over start tags -/

theorem entity_front {a x y : Str} {o s k m : Nat} (hs : s ≤ a.length) (hb : a[s - 1]? = some 62) (ho : o < s)
    (h : EntityAt (a ++ x) o k m) : EntityAt (a ++ y) o k m := by
  obtain ⟨h1, h2, h3, h4, h5, h6⟩ := h
  have h7 : k + m < s := by
    rcases Nat.lt_or_ge (k + m) s with h | h
    · exact h
    · obtain ⟨b, hb1, hb2⟩ := h5 (s - 1) (by omega) (by omega)
      rw [List.getElem?_append_left (by omega), hb] at hb1
      cases hb1
      exact absurd hb2 (by decide)
  have hg : ∀ i, i < s → (a ++ y)[i]? = (a ++ x)[i]? := fun i hi => by
    rw [List.getElem?_append_left (by omega), List.getElem?_append_left (by omega)]
  refine ⟨h1, by rw [hg _ (by omega)]; exact h2, h3, h4, fun i hi hi' => ?_, fun b hb' => ?_⟩
  · rw [hg _ (by omega)]; exact h5 i hi hi'
  · rw [hg _ h7] at hb'; exact h6 b hb'

/-- The `>` of a start tag in front of the place. -/
theorem start_bracket {e : Nat} (hb : BeginAlike a d d') (h : parse u cs void d.text = .ok roots) (hn : InForest roots n)
    (he : n.startTagEnd = some e) (hl : e ≤ a.length) : a[e - 1]? = some 62 ∧ n.start < e := by
  obtain ⟨x, hx⟩ := hb.left
  obtain ⟨h1, h2, _⟩ := (parse_done h hn).ste e he
  have h3 : d.text[e - 1]? = some 62 := at_get h2
  rw [hx, List.getElem?_append_left (by omega)] at h3
  exact ⟨h3, h1⟩

/-- A name ends in front of the `>` of its tag. -/
theorem nameAt_lt {src : Str} {i k s : Nat} {t : Str} (h : NameAt src i t k) (hs : src[s - 1]? = some 62)
    (hl : k + t.length ≤ s) : k + t.length < s := by
  rcases Nat.lt_or_ge (k + t.length) s with h1 | h1
  · exact h1
  · obtain ⟨h2, ⟨r, hr⟩, _⟩ := h
    have ht := List.length_pos_iff.2 h2.1
    have h3 : src[s - 1]? = t[t.length - 1]? := by
      rw [show s - 1 = k + (t.length - 1) by omega, ← List.getElem?_drop, hr, List.getElem?_append_left (by omega)]
    rw [hs, List.getElem?_eq_getElem (by omega)] at h3
    have h4 := h2.2.1 _ (List.getElem_mem (l := t) (n := t.length - 1) (by omega))
    rw [← Option.some.inj h3] at h4
    have := h4 (by decide)
    unfold alnum at this
    omega

theorem attr_name_le {src : Str} {lo hi : Nat} {k : Str} {x : Attr} (h : AttrAt src lo hi k x) : x.offset + k.length ≤ hi := by
  obtain ⟨_, _, h⟩ := h
  cases hv : x.value with
  | none => rw [hv] at h; exact h.2
  | some v =>
    rw [hv] at h
    obtain ⟨w, _, _, h1, _⟩ := h
    simp only [List.length_append] at h1
    omega

/-! ### The reference document -/

theorem refPosAt_front (a x y : Str) (h : a.getLast? ≠ some 13) (o : Nat) (ho : o ≤ a.length) :
    refPosAt (a ++ y) o = refPosAt (a ++ x) o := by
  induction a generalizing o with
  | nil =>
    have : o = 0 := by simpa using ho
    subst this
    cases x <;> cases y <;> rfl
  | cons b t ih =>
    cases o with
    | zero => rfl
    | succ o =>
      have e : isBreak b (t ++ y) = isBreak b (t ++ x) := by
        cases t with
        | nil =>
          have : b ≠ 13 := by simpa using h
          simp [isBreak, beq_eq_false_iff_ne.2 this]
        | cons c t => rfl
      have e2 : refPosAt (t ++ y) o = refPosAt (t ++ x) o := by
        cases t with
        | nil => exact ih (by simp) o (by simpa using ho)
        | cons c t => exact ih (by simpa [List.getLast?_cons_cons] using h) o (by simpa using ho)
      simp only [List.cons_append, refPosAt, e, e2]

theorem refOffsetAt_front (a x y : Str) (l ch : Nat) (h : refOffsetAt (a ++ x) l ch < a.length) :
    refOffsetAt (a ++ y) l ch = refOffsetAt (a ++ x) l ch := by
  induction a generalizing l ch with
  | nil => simp at h
  | cons b t ih =>
    have e : t ≠ [] → isBreak b (t ++ y) = isBreak b (t ++ x) := by
      cases t with
      | nil => intro h; exact absurd rfl h
      | cons c t => intro _; rfl
    cases l with
    | succ l =>
      simp only [List.cons_append, refOffsetAt, List.length_cons] at h ⊢
      have ht : t ≠ [] := by rintro rfl; simp at h
      rw [e ht, ih _ _ (by omega)]
    | zero =>
      simp only [List.cons_append, refOffsetAt, List.length_cons] at h ⊢
      split at h
      · rename_i h1
        simp only [h1, if_true]
        rw [ih _ _ (by omega)]
      · rename_i h1
        simp only [h1, if_false, Bool.false_eq_true]
        split at h
        · rename_i h2
          simp only [h2, if_true]
        · rename_i h2
          have ht : t ≠ [] := by
            rintro rfl
            split at h <;> simp at h
          simp only [h2, if_false]
          rw [e ht]
          split at h
          · rename_i h3
            simp only [h3, if_true]
            rw [ih _ _ (by omega)]
          · rename_i h3
            simp only [h3, if_false, Bool.false_eq_true]
            rw [ih _ _ (by omega)]

end Html
