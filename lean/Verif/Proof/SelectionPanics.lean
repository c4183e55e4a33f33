import Verif.Proof.Selection
import Verif.Proof.Panics

/-! # When selection ranges panic -/

namespace Html
open Spec

/-! ### Parts of UTF-8 texts -/

theorem utf8_split {cps : List Nat} {src : Str} (h : Utf8 cps src) {i : Nat} (hb : isBoundary src i = true) :
    ∃ k, Utf8 (cps.take k) (src.take i) ∧ Utf8 (cps.drop k) (src.drop i) := by
  obtain ⟨hc, rfl⟩ := h
  obtain ⟨k, hk⟩ := utf8_boundary hc hb
  refine ⟨k, ⟨fun c h => hc c (List.mem_of_mem_take h), ?_⟩, ⟨fun c h => hc c (List.mem_of_mem_drop h), hk⟩⟩
  have h1 : (cps.flatMap encodeCP).take i ++ (cps.flatMap encodeCP).drop i =
      (cps.take k).flatMap encodeCP ++ (cps.drop k).flatMap encodeCP := by
    rw [List.take_append_drop, ← List.flatMap_append, List.take_append_drop]
  rw [hk] at h1
  exact List.append_cancel_right h1

theorem isBoundary_take {src : Str} {i b : Nat} (h : isBoundary src i = true) (hi : i ≤ b) (hb : b ≤ src.length) :
    isBoundary (src.take b) i = true := by
  unfold isBoundary at *
  by_cases h1 : i = b
  · rw [if_pos (by rw [List.length_take]; omega)]
  · rw [List.length_take, if_neg (by omega), List.getElem?_take_of_lt (by omega)]
    rw [if_neg (by omega)] at h
    exact h

theorem utf8_sub {cps : List Nat} {src : Str} (h : Utf8 cps src) {a b : Nat} (ha : isBoundary src a = true)
    (hb : isBoundary src b = true) (hab : a ≤ b) :
    ∃ cps', Utf8 cps' (bytesIn src a b) ∧ ∀ c ∈ cps', c ∈ cps := by
  obtain ⟨k, h1, _⟩ := utf8_split h hb
  have ha' := isBoundary_take ha hab (isBoundary_le hb)
  obtain ⟨j, _, h2⟩ := utf8_split h1 ha'
  exact ⟨_, h2, fun c hc => List.mem_of_mem_take (List.mem_of_mem_drop hc)⟩

/-! ### Attributes -/

/-- Values begin where the scanner does not stand inside a character. -/
theorem Step.value_start {c : Cfg} {s s' : Sc} (h : Step c s s') (hi : WInv c s)
    (hk : s'.tokenType = .AttributeValue) : isBoundary c.src s.pos = true := by
  cases h with
  | endTag _ h hs hx => cases hx <;> simp [fin, adv] at hk
  | content _ h hs hx => cases hx <;> simp [fin, adv] at hk
  | scriptContent _ h hs hl hx => cases hx <;> simp [fin, adv] at hk
  | styleContent _ h hs hb h0 hx => cases hx <;> simp [fin, adv] at hk
  | tag _ h hs hx => cases hx <;> simp [fin, adv] at hk
  | afterNameTag _ h hs hw h0 hx => cases hx <;> simp [fin, adv] at hk
  | valueTag _ h hs hw hb h0 h1 hx => cases hx <;> simp [fin, adv] at hk
  | valueUnquoted h hs hw hb h0 => exact hi.resolve_right (by simp [hs])
  | valueQuoted h hs hw hb h0 q hq h1 => exact hi.resolve_right (by simp [hs])
  | _ => simp [fin, adv] at hk

theorem Run.value_slices {c : Cfg} {s s2 : Sc} {ts : List Tok} (h : Run c s ts s2) (hc : AsciiNext c.src) (hi : WInv c s)
    (hle : s.pos ≤ c.src.length) : ∀ t ∈ ts, t.type = .AttributeValue →
      ∃ x, sliceStr c.src t.offset t.stop = .ok x := by
  induction h with
  | nil s => intro t ht; cases ht
  | @cons s s1 s2 ts h hne hr ih =>
    have hst := scan_step h
    intro t ht hk
    rcases List.mem_cons.1 ht with rfl | ht
    · have hk : s1.tokenType = .AttributeValue := hk
      have h1 := hst.value_start hi hk
      have h2 := hst.end_boundary hc hle hi (by rw [hk]; decide)
      refine ⟨_, sliceStr_eq (show s1.tokenOffset ≤ s1.pos from ?_) (?_ : isBoundary c.src s1.tokenOffset = true) h2⟩
      · rw [hst.offset_eq]; exact (hst.pos_le hle).1
      · rw [hst.offset_eq]; exact h1
    · exact ih (hst.winv hc hi) (hst.pos_le hle).2 t ht hk

theorem attrSelFold_values {x : Str} {rel : Nat} {a : AttrSel} {ts : List Tok}
    (h : ∀ t ∈ ts, t.type = .AttributeValue → ∃ y, sliceStr x t.offset t.stop = .ok y) :
    ∃ a', ts.foldlM (attrSelStep x rel) a = .ok a' := by
  induction ts generalizing a with
  | nil => exact ⟨a, rfl⟩
  | cons t ts ih =>
    have : ∃ a1, attrSelStep x rel a t = .ok a1 := by
      unfold attrSelStep
      split
      · split <;> exact ⟨_, rfl⟩
      · rename_i ht
        obtain ⟨y, hy⟩ := h t (by simp) ht
        rw [hy]
        simp only [bind, Except.bind]
        split
        · split
          · exact ⟨_, rfl⟩
          · split <;> exact ⟨_, rfl⟩
        · exact ⟨_, rfl⟩
      · exact ⟨_, rfl⟩
    obtain ⟨a1, h1⟩ := this
    rw [List.foldlM_cons, h1]
    exact ih (fun t ht => h t (by simp [ht]))

variable {u : Uni} {cs : Bool} {void : List Str} {roots : List Node} {cps : List Nat}

theorem attributeRanges_panics {d : TextDoc} {n : Node} {cur : Nat} (hd : Lawful d) (hu : Utf8 cps d.text)
    (hc : n.start ≤ cur) (hs : n.start ≤ n.stop) (h1 : isBoundary d.text n.start = true) (h2 : isBoundary d.text n.stop = true) :
    (∃ e, attributeRanges u cs d n cur = .error e) ↔
      ∃ e, tokens ⟨u, bytesIn d.text n.start n.stop, false, cs⟩ (.new 0 .WithinContent) = .error e := by
  have hx := hd.content_ok hs h1 h2
  obtain ⟨cps', hu', _⟩ := utf8_sub hu h1 h2 hs
  unfold attributeRanges
  rw [hx]
  simp only [bind, Except.bind, subU, if_pos hc]
  cases h : tokens ⟨u, bytesIn d.text n.start n.stop, false, cs⟩ (.new 0 .WithinContent) with
  | error e =>
    refine ⟨fun _ => ⟨e, rfl⟩, fun _ => ?_⟩
    cases h3 : attrSelLoop ⟨u, bytesIn d.text n.start n.stop, false, cs⟩ (cur - n.start)
        (2 * (bytesIn d.text n.start n.stop).length + 2) ⟨[], false, 0⟩ (.new 0 .WithinContent) with
    | error x => exact ⟨x, rfl⟩
    | ok r =>
      obtain ⟨ts, h4, _⟩ := attrSelLoop_ok.1 h3
      have : tokens ⟨u, bytesIn d.text n.start n.stop, false, cs⟩ (.new 0 .WithinContent) = .ok ts := h4
      rw [h] at this; cases this
  | ok ts =>
    obtain ⟨s2, _, hr, _⟩ := tokensF_run h
    obtain ⟨r, h3⟩ := attrSelFold_values (rel := cur - n.start) (a := ⟨[], false, 0⟩)
      (hr.value_slices (asciiNext_of_utf8 hu') (.inr (.inl rfl)) (Nat.zero_le _))
    have h4 : attrSelLoop ⟨u, bytesIn d.text n.start n.stop, false, cs⟩ (cur - n.start)
        (2 * (bytesIn d.text n.start n.stop).length + 2) ⟨[], false, 0⟩ (.new 0 .WithinContent) = .ok r :=
      attrSelLoop_ok.2 ⟨ts, h, h3⟩
    rw [h4]
    exact ⟨fun ⟨e, h⟩ => (by cases h), fun ⟨e, h⟩ => (by cases h)⟩

/-- The text of the closing bracket is read at offsets in the right order. -/
theorem Spec.Lawful.content_ordered {d : TextDoc} (hd : Lawful d) (ho : Ordered d) {a b : Nat} (hab : a ≤ b)
    (hb : isBoundary d.text b = true) : ∃ x, d.content ⟨d.posAt a, d.posAt b⟩ = .ok x := by
  have h1 := ho _ _ (hd.mono a b hab)
  unfold TextDoc.content
  simp only
  exact ⟨_, sliceStr_eq h1 (hd.inRange _).2 (hd.inRange _).2⟩

theorem applicableRanges_panics {d : TextDoc} {p : Pos} (hd : Lawful d) (ho : Ordered d) (hu : Utf8 cps d.text)
    (h : parse u cs void d.text = .ok roots) :
    (∃ e, applicableRanges u cs d roots p = .error e) ↔
      ∃ n, InForest roots n ∧ Covers n (d.offsetAt p) ∧ (∀ k ∈ n.children, ¬ Covers k (d.offsetAt p)) ∧
        AttrsWanted n (d.offsetAt p) ∧
        ∃ e, tokens ⟨u, bytesIn d.text n.start n.stop, false, cs⟩ (.new 0 .WithinContent) = .error e := by
  have hnx := asciiNext_of_utf8 hu
  have hs := findNodeAt_spec (o := d.offsetAt p) (parse_nest h)
  unfold applicableRanges
  simp only
  cases hf : findNodeAt roots (d.offsetAt p) with
  | none =>
    rw [hf] at hs
    constructor
    · rintro ⟨e, he⟩; cases he
    · rintro ⟨n, h1, h2, _⟩; exact absurd h2 (hs n h1)
  | some x =>
    obtain ⟨n, ps⟩ := x
    rw [hf] at hs
    have hin := (chain_inForest hs.chain).1
    have hdone := parse_done h hin
    have hc := hs.covers
    have hleaf : ∀ k ∈ n.children, ¬ Covers k (d.offsetAt p) :=
      fun k hk => findNodeAt_leaf (parse_nest h) hf k (.root hk)
    have hatt := attributeRanges_panics (u := u) (cs := cs) hd hu hc.1 (by unfold Covers at hc; omega)
      (hdone.start_bd hnx).1 (parse_stop_bd hnx h hin)
    have key : (∃ n, InForest roots n ∧ Covers n (d.offsetAt p) ∧ (∀ k ∈ n.children, ¬ Covers k (d.offsetAt p)) ∧
        AttrsWanted n (d.offsetAt p) ∧
        ∃ e, tokens ⟨u, bytesIn d.text n.start n.stop, false, cs⟩ (.new 0 .WithinContent) = .error e) ↔
        AttrsWanted n (d.offsetAt p) ∧ ∃ e, attributeRanges u cs d n (d.offsetAt p) = .error e := by
      rw [hatt]
      constructor
      · rintro ⟨m, m1, m2, m3, m4⟩
        have hmn : m = n := by
          rcases hs.all m m1 m2 with h3 | h3
          · obtain ⟨k, k1, k2⟩ := chain_child (parse_nest h).deep hs.chain hs.covers h3
            exact absurd k2 (m3 k k1)
          · exact h3
        subst hmn
        exact m4
      · intro h1
        exact ⟨n, hin, hc, hleaf, h1⟩
    rw [key]
    unfold Covers at hc
    simp only
    cases he : n.startTagEnd with
    | none =>
      constructor
      · rintro ⟨e, he⟩; cases he
      · rintro ⟨h1, _⟩
        rcases h1 with h1 | ⟨_, _, h1, _⟩
        · rw [h1.1] at he; cases he
        · rw [h1] at he; cases he
    | some e =>
      have hste := hdone.ste e he
      have hgt : d.text[e - 1]? = some 62 := at_get0 hste.2.1
      have hlt : d.text[n.start]? = some 60 := hdone.opn
      have h2 : 2 ≤ e := by
        rcases Nat.lt_or_ge e 2 with h2 | h2
        · have e0 : n.start = e - 1 := by have := hste.1; omega
          rw [← e0, hlt] at hgt; cases hgt
        · exact h2
      cases hets : n.endTagStart with
      | none =>
        simp only
        unfold voidRanges
        by_cases hst : e = n.stop
        · rw [if_neg (by simpa using hst)]
          have hb : isBoundary d.text e = true := by rw [hst]; exact parse_stop_bd hnx h hin
          obtain ⟨x, hx⟩ := hd.content_ordered ho (a := e - 2) (b := e) (by omega) hb
          rw [show subU e 2 = .ok (e - 2) from if_pos h2]
          simp only [bind, Except.bind, hx]
          have hw : AttrsWanted n (d.offsetAt p) := .inl ⟨by rw [he, hst], hets⟩
          cases attributeRanges u cs d n (d.offsetAt p) with
          | error y => exact ⟨fun _ => ⟨hw, y, rfl⟩, fun _ => ⟨y, rfl⟩⟩
          | ok y => exact ⟨fun ⟨e, h⟩ => (by cases h), fun ⟨_, e, h⟩ => (by cases h)⟩
        · rw [if_pos hst]
          constructor
          · rintro ⟨e, he⟩; cases he
          · rintro ⟨h1, _⟩
            rcases h1 with h1 | ⟨_, _, _, h1, _⟩
            · have h3 := h1.1
              rw [he] at h3; exact absurd (by simpa using h3) hst
            · rw [h1] at hets; cases hets
      | some ets =>
        simp only
        unfold pairRanges
        simp only
        by_cases hpos : n.start < d.offsetAt p ∧ d.offsetAt p < e
        · rw [if_pos hpos, show subU e 1 = .ok (e - 1) from if_pos (by omega)]
          simp only [bind, Except.bind]
          have hw : AttrsWanted n (d.offsetAt p) := .inr ⟨e, ets, he, hets, hpos⟩
          cases attributeRanges u cs d n (d.offsetAt p) with
          | error y => exact ⟨fun _ => ⟨hw, y, rfl⟩, fun _ => ⟨y, rfl⟩⟩
          | ok y => exact ⟨fun ⟨e, h⟩ => (by cases h), fun ⟨_, e, h⟩ => (by cases h)⟩
        · rw [if_neg hpos]
          have hno : ¬ AttrsWanted n (d.offsetAt p) := by
            rintro (h1 | ⟨e', _, h1, _, h3⟩)
            · rw [h1.2] at hets; cases hets
            · rw [he] at h1; cases h1; exact hpos h3
          constructor
          · rintro ⟨x, hx⟩
            exfalso
            split at hx
            · cases hx
            · split at hx
              · rw [show subU n.stop 1 = .ok (n.stop - 1) from if_pos (by omega)] at hx
                cases hx
              · cases hx
          · rintro ⟨h1, _⟩; exact absurd h1 hno

theorem selectionRange_panics {d : TextDoc} {p : Pos} :
    (∃ e, selectionRange u cs d roots p = .error e) ↔ ∃ e, applicableRanges u cs d roots p = .error e := by
  unfold selectionRange
  cases applicableRanges u cs d roots p with
  | error e => exact ⟨fun _ => ⟨e, rfl⟩, fun _ => ⟨e, rfl⟩⟩
  | ok l =>
    simp only [bind, Except.bind]
    constructor
    · rintro ⟨e, he⟩
      split at he <;> cases he
    · rintro ⟨e, he⟩; cases he

theorem mapM_error {α β : Type} {f : α → R β} {l : List α} :
    (∃ e, l.mapM f = .error e) ↔ ∃ a ∈ l, ∃ e, f a = .error e := by
  induction l with
  | nil => simp [pure, Except.pure]
  | cons a l ih =>
    rw [List.mapM_cons]
    cases h : f a with
    | error e => exact ⟨fun _ => ⟨a, by simp, e, h⟩, fun _ => ⟨e, rfl⟩⟩
    | ok b =>
      have : (∃ e, l.mapM f = .error e) ↔ ∃ e, (do let b' ← (Except.ok b : R β); let bs ← l.mapM f; pure (b' :: bs) : R (List β)) = .error e := by
        cases l.mapM f <;> simp [bind, Except.bind, pure, Except.pure]
      rw [← this, ih]
      constructor
      · rintro ⟨x, h1, h2⟩; exact ⟨x, by simp [h1], h2⟩
      · rintro ⟨x, h1, e, h2⟩
        rcases List.mem_cons.1 h1 with rfl | h1
        · rw [h] at h2; cases h2
        · exact ⟨x, h1, e, h2⟩

/-- In the reference document offsets are in the order of positions. -/
theorem ref_ordered (src : Str) : Ordered (.ref src) := by
  have key : ∀ (s : Str) (l l' c c' : Nat), (l < l' ∨ (l = l' ∧ c ≤ c')) → refOffsetAt s l c ≤ refOffsetAt s l' c' := by
    intro s
    induction s with
    | nil => intro l l' c c' _; simp [refOffsetAt]
    | cons b t ih =>
      intro l l' c c' h
      cases l with
      | succ l =>
        cases l' with
        | zero => omega
        | succ l' =>
          unfold refOffsetAt
          have := ih (if isBreak b t then l else l + 1) (if isBreak b t then l' else l' + 1) c c'
            (by split <;> omega)
          omega
      | zero =>
        cases l' with
        | zero =>
          have hc : c ≤ c' := by omega
          unfold refOffsetAt
          by_cases h1 : isCont b = true
          · rw [if_pos h1, if_pos h1]
            have := ih 0 0 c c' (.inr ⟨rfl, hc⟩); omega
          · rw [if_neg h1, if_neg h1]
            by_cases h2 : c = 0
            · rw [if_pos h2]; omega
            · rw [if_neg h2, if_neg (show ¬ c' = 0 by omega)]
              split
              · omega
              · have := ih 0 0 (c - units b) (c' - units b) (.inr ⟨rfl, by omega⟩); omega
        | succ l' =>
          unfold refOffsetAt
          by_cases h1 : isCont b = true
          · rw [if_pos h1]
            have hb : isBreak b t = false := by
              unfold isCont at h1; unfold isBreak
              simp at h1 ⊢
              omega
            rw [if_neg (by simp [hb])]
            have := ih 0 (l' + 1) c c' (.inl (by omega)); omega
          · rw [if_neg h1]
            by_cases h2 : c = 0
            · rw [if_pos h2]; omega
            · rw [if_neg h2]
              by_cases h3 : isBreak b t = true
              · rw [if_pos h3, if_pos h3]
                have := ih 0 l' 0 c' (by rcases Nat.eq_zero_or_pos l' with h | h <;> omega); omega
              · rw [if_neg h3, if_neg h3]
                have := ih 0 (l' + 1) (c - units b) c' (.inl (by omega)); omega
  intro p q h
  exact key src p.line q.line p.character q.character h

end Html
