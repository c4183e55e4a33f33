import Verif.Proof.Utf8
import Verif.Proof.Tile
import Verif.Proof.Print
import Verif.Spec.Panics

/-! # Where exactly the scanner panics -/

namespace Html
open Spec

variable {c : Cfg}

/-- Where a scanner may stand in any UTF-8 text. -/
def WInv (c : Cfg) (s : Sc) : Prop :=
  isBoundary c.src s.pos = true ∨ s.state = .WithinContent ∨ s.state = .WithinTag

theorem StepContent.winv {s s' : Sc} (h : StepContent c s s') (hc : AsciiNext c.src)
    (hp : s.pos < c.src.length) : WInv c s' := by
  rcases h.binv hc hp with h | h | h
  · exact .inl h
  · exact .inr (.inl h)
  · exact .inr (.inr h.1)

theorem StepTag.winv {s s' : Sc} (h : StepTag c s s') (hc : AsciiNext c.src)
    (hp : s.pos < c.src.length) (hs : s.state = .WithinTag) : WInv c s' := by
  cases h with
  | ws h => exact .inl (hc.ws h)
  | attrName hs hw hb h =>
    left
    have : isBoundary (rest c s) (attrNameLen (rest c s)) = true := firstRunLen_boundary h
    rw [rest, isBoundary_drop (by omega)] at this
    exact this
  | selfClose s1 hp1 h => exact .inr (.inl rfl)
  | close s1 hp1 h =>
    left
    show isBoundary c.src (s1.pos + 1) = true
    rw [hp1.pos_eq]
    exact hc.head h (by omega)
  | pseudo s1 hp1 he h => exact .inr (.inl rfl)
  | unknown s1 hp1 h0 =>
    refine .inr (.inr ?_)
    cases hp1 <;> exact hs

theorem Step.winv {s s' : Sc} (h : Step c s s') (hc : AsciiNext c.src) (hi : WInv c s) : WInv c s' := by
  cases h with
  | eos h => exact hi
  | content _ h hs hx => exact hx.winv hc h
  | commentEnd h hs hx => exact .inr (.inl rfl)
  | comment h hs hx h0 => exact .inl (untilLit_boundary (b := 45) rfl (by omega) (by omega))
  | doctypeEnd h hs hx => exact .inr (.inl rfl)
  | doctype h hs hx h0 => exact .inl (untilByte_boundary (by omega) (by omega))
  | endTagName h hs hb h0 =>
    left
    have : isBoundary (rest c s) (elementNameLen c.uni (rest c s)) = true := firstRunLen_boundary h0
    rw [rest, isBoundary_drop (by omega)] at this
    exact this
  | endTagWs h hs hb hn h0 => exact .inl (hc.ws h0)
  | endTagNoName h hs hb hn hw h0 => exact .inl (untilByte_boundary (by omega) (by omega))
  | endTagImmediate h hs hb hn hw h0 => exact .inr (.inl rfl)
  | endTag _ h hs hx =>
    cases hx with
    | ws h0 => exact .inl (hc.ws h0)
    | close h0 => exact .inr (.inl rfl)
    | pseudo he h0 => exact .inr (.inl rfl)
    | unknown => exact .inr (.inl rfl)
  | startTagName h hs hb h0 => exact .inr (.inr rfl)
  | startTagWs h hs hb hn h0 => exact .inl (hc.ws h0)
  | startTagNoName h hs hb hn hw h0 => exact .inr (.inr rfl)
  | startTagImmediate h hs hb hn hw h0 => exact .inr (.inl rfl)
  | tag _ h hs hx => exact hx.winv hc h hs
  | afterNameWs h hs h0 => exact .inl (hc.ws h0)
  | assign h hs hw h0 => exact .inl (hc.head h0 (by omega))
  | afterNameTag _ h hs hw h0 hx => exact hx.winv hc h rfl
  | valueWs h hs h0 => exact .inr (.inr rfl)
  | valueUnquoted h hs hw hb h0 => exact .inr (.inr rfl)
  | valueQuoted h hs hw hb h0 q hq h1 => exact .inr (.inr rfl)
  | valueTag _ h hs hw hb h0 h1 hx => exact hx.winv hc h rfl
  | script p st h hs hp hl hst =>
    rcases hst with ⟨rfl, _⟩ | ⟨rfl, rfl, _⟩
    · exact .inr (.inl rfl)
    · exact .inl (isBoundary_length _)
  | scriptContent _ h hs hl hx => exact hx.winv hc h
  | style h hs hb h0 => exact .inr (.inl rfl)
  | styleContent _ h hs hb h0 hx => exact hx.winv hc h

theorem off_boundary {src : Str} {i : Nat} (h : isBoundary src i = false) (hi : i < src.length) :
    ∃ b, src[i]? = some b ∧ isCont b = true := by
  refine ⟨src[i], List.getElem?_eq_getElem hi, ?_⟩
  unfold isBoundary at h
  rw [List.getElem?_eq_getElem hi] at h
  split at h
  · cases h
  · simpa using h

theorem wsLen_off {src : Str} {i : Nat} (h : isBoundary src i = false) (hi : i < src.length) :
    wsLen (src.drop i) = 0 := by
  obtain ⟨b, hb, hc⟩ := off_boundary h hi
  obtain ⟨r, hr⟩ : ∃ r, src.drop i = b :: r := head_cons (by simpa using hb)
  rw [hr]
  unfold isCont at hc
  have : isWs b = false := by
    unfold isWs
    simp at hc ⊢
    omega
  simp [wsLen, this]

/-- The last byte is an ASCII character or continues a character (true for every UTF-8 text). -/
def LastByte (src : Str) : Prop := ∀ b, src.getLast? = some b → 128 ≤ b → isCont b = true

theorem encodeCP_last (cp : Nat) : ∃ x b, encodeCP cp = x ++ [b] ∧ (128 ≤ b → isCont b = true) := by
  unfold encodeCP
  split
  · exact ⟨[], cp, rfl, fun h => by omega⟩
  · split
    · exact ⟨[_], _, rfl, fun _ => by unfold isCont; simp; omega⟩
    · split
      · exact ⟨[_, _], _, rfl, fun _ => by unfold isCont; simp; omega⟩
      · exact ⟨[_, _, _], _, rfl, fun _ => by unfold isCont; simp; omega⟩

theorem lastByte_of_utf8 {cps : List Nat} {src : Str} (h : Utf8 cps src) : LastByte src := by
  obtain ⟨_, rfl⟩ := h
  intro b hb h128
  rcases List.eq_nil_or_concat cps with rfl | ⟨l, cp, rfl⟩
  · simp at hb
  · obtain ⟨x, b', e, h1⟩ := encodeCP_last cp
    rw [List.concat_eq_append, List.flatMap_append, List.flatMap_cons, List.flatMap_nil, List.append_nil, e, ← List.append_assoc,
      List.getLast?_append] at hb
    simp at hb
    subst hb
    exact h1 h128

theorem openQuote_iff (hc : AsciiNext c.src) (hlast : LastByte c.src) {s : Sc} (hb : isBoundary c.src s.pos = true)
    (hp : s.pos < c.src.length) :
    OpenQuote (rest c s) ↔ ∃ q, (q = 39 ∨ q = 34) ∧ (rest c s).head? = some q ∧
      ∃ e, sliceStr c.src (min (s.pos + 1) (s.pos + quotedLen q (rest c s) - 1))
        (max (s.pos + 1) (s.pos + quotedLen q (rest c s) - 1)) = .error e := by
  have hlen := rest_length c s
  have hgl : ∀ {q b : Nat} {v : Str}, rest c s = q :: v → v.getLast? = some b →
      c.src[c.src.length - 1]? = some b ∧ c.src.getLast? = some b := by
    intro q b v hr hv
    have h2 : (rest c s).getLast? = some b := by
      rw [hr, List.getLast?_cons, hv]; rfl
    have h3 : c.src.getLast? = some b := by
      rw [rest, List.getLast?_drop, if_neg (by omega)] at h2
      exact h2
    exact ⟨by rw [← List.getLast?_eq_getElem?]; exact h3, h3⟩
  constructor
  · rintro ⟨q, v, b, hq, hr, hv, hl, hb8⟩
    refine ⟨q, hq, by rw [hr]; rfl, ?_⟩
    have hn : untilByte q v = v.length := by
      have := untilByte_append (x := q) (v := v) (t := []) hv
      simpa [untilByte] using this
    have hv0 : v ≠ [] := by intro h; rw [h] at hl; cases hl
    have hv1 : 0 < v.length := List.length_pos_iff.2 hv0
    rw [hr, List.length_cons] at hlen
    have hql : quotedLen q (rest c s) = 1 + v.length := by
      unfold quotedLen
      rw [hr]
      simp only [List.drop_succ_cons, List.drop_zero, hn, List.length_cons]
      rw [if_neg (by omega)]
    rw [hql]
    obtain ⟨h1, h2⟩ := hgl hr hl
    have hoff : isBoundary c.src (c.src.length - 1) = false := by
      unfold isBoundary
      rw [if_neg (by omega), h1]
      simp [hlast b h2 hb8]
    have e1 : max (s.pos + 1) (s.pos + (1 + v.length) - 1) = c.src.length - 1 := by omega
    rw [e1]
    refine ⟨.slice, ?_⟩
    unfold sliceStr
    rw [hoff]
    simp
  · rintro ⟨q, hq, hh, e, he⟩
    obtain ⟨v, hr⟩ := head_cons hh
    have hb1 : isBoundary c.src (s.pos + 1) = true := hc.head hh (by omega)
    rw [hr, List.length_cons] at hlen
    have hle := untilByte_le q v
    have hbad := (sliceStr_err he).2
    have hno : isBoundary c.src (s.pos + quotedLen q (rest c s) - 1) = false := by
      cases h : isBoundary c.src (s.pos + quotedLen q (rest c s) - 1) with
      | false => rfl
      | true =>
        refine absurd ⟨by omega, ?_, ?_⟩ hbad
        · rcases Nat.le_total (s.pos + 1) (s.pos + quotedLen q (rest c s) - 1) with hle | hle
          · rw [Nat.min_eq_left hle]; exact hb1
          · rw [Nat.min_eq_right hle]; exact h
        · rcases Nat.le_total (s.pos + 1) (s.pos + quotedLen q (rest c s) - 1) with hle | hle
          · rw [Nat.max_eq_right hle]; exact h
          · rw [Nat.max_eq_left hle]; exact hb1
    unfold quotedLen at hno
    rw [hr] at hno
    simp only [List.drop_succ_cons, List.drop_zero, List.length_cons] at hno
    by_cases hlt : untilByte q v < v.length
    · rw [if_pos (by omega)] at hno
      have hg := untilByte_get hlt
      have : c.src[s.pos + (2 + untilByte q v) - 1]? = some q := by
        have e2 : s.pos + (2 + untilByte q v) - 1 = s.pos + (untilByte q v + 1) := by omega
        rw [e2, ← List.getElem?_drop, ← rest, hr]
        simpa using hg
      rw [isBoundary_of_get this (by unfold isCont; simp; omega)] at hno
      cases hno
    · rw [if_neg (by omega)] at hno
      have hn : untilByte q v = v.length := by omega
      have hqv : q ∉ v := by
        have := untilByte_ne (c := q) (s := v)
        rwa [hn, List.take_length] at this
      cases hv : v.getLast? with
      | none =>
        rw [List.getLast?_eq_none_iff] at hv
        subst hv
        simp only [untilByte, Nat.add_sub_cancel] at hno
        rw [hb] at hno; cases hno
      | some b =>
        obtain ⟨h1, h2⟩ := hgl hr hv
        have e2 : s.pos + (1 + untilByte q v) - 1 = c.src.length - 1 := by omega
        rw [e2] at hno
        refine ⟨q, v, b, hq, hr, hqv, hv, ?_⟩
        rcases Nat.lt_or_ge b 128 with h | h
        · rw [isBoundary_of_get h1 (by unfold isCont; simp; omega)] at hno; cases hno
        · exact h

theorem unquotedLen_quote {q : Nat} {v : Str} (hq : q = 39 ∨ q = 34) : unquotedLen (q :: v) = 0 := by
  unfold unquotedLen firstRunLen codePoint
  rcases hq with rfl | rfl <;> simp [unquotedChar, isSpaceCP]

theorem Step.inTag {s s' : Sc} (h : Step c s s') (hs : s.state = .WithinTag) (hp : s.pos < c.src.length) :
    StepTag c s s' := by
  cases h with
  | tag _ _ _ hx => exact hx
  | eos h => omega
  | _ => simp_all

theorem rememberQuoted_stuck {s : Sc} {q : Nat} (h1 : 0 < quotedLen q (rest c s)) (ht : s.lastAttr = some b!"type")
    {e : Panic} (he : sliceStr c.src (min (s.pos + 1) (s.pos + quotedLen q (rest c s) - 1))
        (max (s.pos + 1) (s.pos + quotedLen q (rest c s) - 1)) = .error e) :
    rememberQuoted c (adv s (quotedLen q (rest c s))) s.pos = .error e := by
  unfold rememberQuoted
  have hla : (adv s (quotedLen q (rest c s))).lastAttr = s.lastAttr := rfl
  rw [hla, if_pos ht]
  have hsub : subU (adv s (quotedLen q (rest c s))).pos 1 = .ok (s.pos + quotedLen q (rest c s) - 1) := by
    simp only [adv]; unfold subU; rw [if_pos (by omega)]
  rw [hsub]
  simp only [bind, Except.bind]
  by_cases hgt : s.pos + 1 > s.pos + quotedLen q (rest c s) - 1
  · rw [Nat.min_eq_right (by omega), Nat.max_eq_left (by omega)] at he
    simp only [hgt, if_true, he]
  · rw [Nat.min_eq_left (by omega), Nat.max_eq_right (by omega)] at he
    simp only [hgt, if_false, he]

/-- `scan()` panics exactly for stuck scanners. -/
theorem scan_panics_iff (hc : AsciiNext c.src) (hlast : LastByte c.src) {s : Sc} (hi : WInv c s)
    (hle : s.pos ≤ c.src.length) :
    (∃ e, scan c s = .error e) ↔ Stuck c s := by
  constructor
  · rintro ⟨e, he⟩
    rw [scan_eq_internalScan] at he
    obtain ⟨_, hp, h1 | h1 | h1 | h1 | h1⟩ := internalScan_err he
    · obtain ⟨hb, h1⟩ := h1
      rcases hi with hi | hi | hi
      · rw [hb] at hi; cases hi
      · simp [hi] at h1
      · rw [hi] at h1
        simp at h1
        exact .inl ⟨hi, h1, hb⟩
    · obtain ⟨_, h2, _, h3⟩ := h1
      rw [hc _ _ (rest_get h2) (by omega)] at h3; cases h3
    · rcases hi with hi | hi | hi
      · exact absurd h1.2 (hc.scriptLoop (by omega) hi)
      · rw [h1.1] at hi; cases hi
      · rw [h1.1] at hi; cases hi
    · obtain ⟨hs, ht, hb, hx⟩ := h1
      exact .inr ⟨hs, ht, (openQuote_iff hc hlast hb hp).2 hx⟩
    · obtain ⟨_, hb, q, hq, hh, hn⟩ := h1
      rw [List.head?_drop] at hh
      have := hc.after (p := s.pos) hh (by omega)
      rw [Nat.add_assoc] at hn
      rw [this] at hn; cases hn
  · rintro (⟨hs, hsp, hb⟩ | ⟨hs, ht, hq⟩)
    · cases h : scan c s with
      | error e => exact ⟨e, rfl⟩
      | ok s' =>
        exfalso
        have hp : s.pos < c.src.length := by
          rcases Nat.lt_or_eq_of_le hle with h | h
          · exact h
          · rw [h, isBoundary_length] at hb; cases hb
        have hw := wsLen_off hb hp
        have hpre : ∀ {s1}, ¬ TagPre c s s1 := by
          intro s1 h
          cases h with
          | noSpace h => rw [hsp] at h; cases h
          | equals _ h => rw [hb] at h; cases h
          | other _ h => rw [hb] at h; cases h
        have hst := (scan_step h).inTag hs hp
        clear h
        cases hst with
        | ws h => exact absurd h (by rw [rest, hw]; omega)
        | attrName _ _ h => rw [hb] at h; cases h
        | selfClose _ h => exact hpre h
        | close _ h => exact hpre h
        | pseudo _ h => exact hpre h
        | unknown _ h => exact hpre h
    · obtain ⟨q, v, b, hq1, hr, _⟩ := id hq
      have hp : s.pos < c.src.length := by
        have := rest_length c s
        rw [hr, List.length_cons] at this
        omega
      have hb : isBoundary c.src s.pos = true := by
        rcases hi with hi | hi | hi
        · exact hi
        · rw [hs] at hi; cases hi
        · rw [hs] at hi; cases hi
      obtain ⟨q', hq', hh, e, he⟩ := (openQuote_iff hc hlast hb hp).1 hq
      refine ⟨e, ?_⟩
      have hqq : q' = q := by rw [hr] at hh; simpa using hh.symm
      subst hqq
      have hws : wsLen (rest c s) = 0 := by
        rw [hr]; rcases hq' with rfl | rfl <;> rfl
      rw [scan_eq_internalScan]
      unfold internalScan
      rw [eos_false hp, hs]
      simp only [Bool.false_eq_true, if_false]
      unfold armBeforeAttributeValue
      rw [hws, sliceFrom_eq hb]
      simp only [Nat.lt_irrefl, gt_iff_lt, if_false, bind, Except.bind]
      rw [if_pos (by rw [hr]; exact unquotedLen_quote hq')]
      unfold armQuotedValue
      simp only [peek_eq_head, hh, if_pos hq']
      rw [quoted_pos hh, rememberQuoted_stuck (by unfold quotedLen; simp only; split <;> omega) ht he]
      rfl

/-! ### The hidden fields and the tokens so far -/

theorem concat_cases {α : Type} {l pre us : List α} {x w : α} (h : l ++ [x] = pre ++ w :: us) :
    (us = [] ∧ l = pre ∧ x = w) ∨ ∃ us', us = us' ++ [x] ∧ l = pre ++ w :: us' := by
  rcases List.eq_nil_or_concat us with rfl | ⟨us', y, rfl⟩
  · left
    have := List.append_inj_right' h rfl
    exact ⟨rfl, List.append_inj_left' h rfl, by simpa using this⟩
  · right
    rw [List.concat_eq_append] at h ⊢
    have h' : l ++ [x] = (pre ++ w :: us') ++ [y] := by rw [h]; simp
    have e1 := List.append_inj_left' h' rfl
    have e2 := List.append_inj_right' h' rfl
    simp at e2
    subst e2
    exact ⟨us', rfl, e1⟩

theorem behindSpace_concat {src : Str} {ts : List Tok} {x : Tok} :
    BehindSpace src (ts ++ [x]) ↔
      x.type = .Whitespace ∨ (x.type = .Unknown ∧ bytesIn src x.offset x.stop ≠ b!"=" ∧ BehindSpace src ts) := by
  constructor
  · rintro ⟨pre, w, us, e, hw, hu⟩
    rcases concat_cases e with ⟨rfl, rfl, rfl⟩ | ⟨us', rfl, rfl⟩
    · exact .inl hw
    · have := hu x (by simp)
      exact .inr ⟨this.1, this.2, pre, w, us', rfl, hw, fun y hy => hu y (by simp [hy])⟩
  · rintro (h | ⟨h1, h2, pre, w, us, rfl, hw, hu⟩)
    · exact ⟨ts, x, [], rfl, h, by simp⟩
    · refine ⟨pre, w, us ++ [x], by simp, hw, fun y hy => ?_⟩
      rcases List.mem_append.1 hy with hy | hy
      · exact hu y hy
      · rw [List.mem_singleton] at hy
        subst hy
        exact ⟨h1, h2⟩

/-- The last tokens are the attribute name `a` and perhaps white space. -/
def NamedLast (c : Cfg) (ts : List Tok) (a : Str) : Prop :=
  ∃ pre n ws, ts = pre ++ n :: ws ∧ n.type = .AttributeName ∧
    comparedName c.uni c.caseSensitive (bytesIn c.src n.offset n.stop) = a ∧ ∀ w ∈ ws, w.type = .Whitespace

theorem namedLast_concat {ts : List Tok} {x : Tok} {a : Str} :
    NamedLast c (ts ++ [x]) a ↔
      (x.type = .AttributeName ∧ comparedName c.uni c.caseSensitive (bytesIn c.src x.offset x.stop) = a) ∨
      (x.type = .Whitespace ∧ NamedLast c ts a) := by
  constructor
  · rintro ⟨pre, n, ws, e, hn, ha, hw⟩
    rcases concat_cases e with ⟨rfl, rfl, rfl⟩ | ⟨ws', rfl, rfl⟩
    · exact .inl ⟨hn, ha⟩
    · exact .inr ⟨hw x (by simp), pre, n, ws', rfl, hn, ha, fun y hy => hw y (by simp [hy])⟩
  · rintro (⟨h1, h2⟩ | ⟨h1, pre, n, ws, rfl, hn, ha, hw⟩)
    · exact ⟨ts, x, [], rfl, h1, h2, by simp⟩
    · refine ⟨pre, n, ws ++ [x], by simp, hn, ha, fun y hy => ?_⟩
      rcases List.mem_append.1 hy with hy | hy
      · exact hw y hy
      · rw [List.mem_singleton] at hy
        subst hy
        exact h1

theorem assignedTo_concat {ts : List Tok} {x : Tok} {a : Str} :
    AssignedTo c.uni c.caseSensitive c.src (ts ++ [x]) a ↔ x.type = .DelimiterAssign ∧ NamedLast c ts a := by
  constructor
  · rintro ⟨pre, n, ws, d, e, hn, ha, hw, hd⟩
    have h' : ts ++ [x] = (pre ++ n :: ws) ++ [d] := by rw [e]; simp
    have e1 := List.append_inj_left' h' rfl
    have e2 := List.append_inj_right' h' rfl
    simp at e2
    subst e2
    exact ⟨hd, pre, n, ws, e1, hn, ha, hw⟩
  · rintro ⟨hd, pre, n, ws, rfl, hn, ha, hw⟩
    exact ⟨pre, n, ws, x, by simp, hn, ha, hw, hd⟩

/-- What the tokens so far say about the hidden fields. -/
structure Hist (c : Cfg) (o : Nat) (ts : List Tok) (s : Sc) : Prop where
  last : (ts = [] ∧ s.pos = o) ∨ ∃ init, ts = init ++ [s.tok]
  space : s.pos < c.src.length → s.state = .WithinTag ∨ s.state = .AfterAttributeName →
    (s.hasSpace = true ↔ BehindSpace c.src ts) ∨ (rest c s).head? = some 62
  noSpace : s.pos < c.src.length → s.state = .BeforeAttributeValue → ¬ BehindSpace c.src ts
  named : s.pos < c.src.length → s.state = .AfterAttributeName → ∀ a, s.lastAttr = some a ↔ NamedLast c ts a
  assigned : s.pos < c.src.length → s.state = .BeforeAttributeValue →
    ∀ a, s.lastAttr = some a ↔ AssignedTo c.uni c.caseSensitive c.src ts a

theorem Hist.init (o : Nat) (st : SS) : Hist c o [] (.new o st) where
  last := .inl ⟨rfl, rfl⟩
  space := fun _ _ => .inl (by simp [Sc.new, BehindSpace])
  noSpace := fun _ _ => by simp [BehindSpace]
  named := fun _ _ a => by simp [Sc.new, NamedLast]
  assigned := fun _ _ a => by simp [Sc.new, AssignedTo]

theorem StepTag.hist_space {s s' : Sc} {ts : List Tok} (h : StepTag c s s')
    (hsp : (s.hasSpace = true ↔ BehindSpace c.src ts) ∨ (rest c s).head? = some 62)
    (hs' : s'.state = .WithinTag ∨ s'.state = .AfterAttributeName) (hp : s.pos < c.src.length) :
    s'.hasSpace = true ↔ BehindSpace c.src (ts ++ [s'.tok]) := by
  rw [behindSpace_concat]
  cases h with
  | ws h => exact ⟨fun _ => .inl rfl, fun _ => rfl⟩
  | attrName h1 hw hb h =>
    simp [fin, Sc.tok]
  | selfClose s1 hp1 h => simp [fin] at hs'
  | close s1 hp1 h =>
    exfalso
    simp only [fin] at hs'
    unfold afterStartTag at hs'
    split at hs'
    · split at hs' <;> simp at hs'
    · split at hs' <;> simp at hs'
  | pseudo s1 hp1 he h => simp [fin] at hs'
  | unknown s1 hp1 h0 h1 h2 =>
    have hsp := hsp.resolve_right h2
    have ht : ∀ {b}, (rest c s).head? = some b → bytesIn c.src s.pos (s.pos + 1) = [b] := by
      intro b hb
      obtain ⟨t, ht⟩ := head_cons hb
      unfold bytesIn
      rw [List.drop_take, Nat.add_sub_cancel_left, ← rest, ht]
      rfl
    cases hp1 with
    | noSpace hns =>
      simp only [fin, adv, Sc.tok, hns, Bool.false_eq_true, false_iff]
      rintro (h | ⟨_, _, h⟩)
      · cases h
      · rw [hsp.2 h] at hns; cases hns
    | equals h hb hn he =>
      simp only [fin, adv, Sc.tok, Bool.false_eq_true, false_iff]
      rintro (h | ⟨_, h, _⟩)
      · cases h
      · exact h (ht he)
    | other h hb hn he =>
      refine ⟨fun _ => .inr ⟨rfl, ?_, hsp.1 h⟩, fun _ => h⟩
      obtain ⟨b, t, hbt⟩ := List.exists_cons_of_ne_nil (rest_ne_nil hp)
      have hb1 : (rest c s).head? = some b := by rw [hbt]; rfl
      show bytesIn c.src s.pos (s.pos + 1) ≠ _
      rw [ht hb1]
      intro h
      rw [hb1] at he
      simp at h
      subst h
      exact he rfl

theorem StepTag.hist_named {s s' : Sc} {ts : List Tok} (h : StepTag c s s') (hs : s.state = .WithinTag)
    (hs' : s'.state = .AfterAttributeName) (a : Str) : s'.lastAttr = some a ↔ NamedLast c (ts ++ [s'.tok]) a := by
  rw [namedLast_concat]
  cases h with
  | ws h => simp [fin, adv, hs] at hs'
  | attrName h1 hw hb h =>
    have : bytesIn c.src s.pos (s.pos + attrNameLen (rest c s)) = (rest c s).take (attrNameLen (rest c s)) := by
      unfold bytesIn
      rw [List.drop_take, Nat.add_sub_cancel_left, rest]
    simp only [fin, adv, Sc.tok, this, comparedName]
    simp
  | selfClose s1 hp1 h => simp [fin] at hs'
  | close s1 hp1 h =>
    exfalso
    simp only [fin] at hs'
    unfold afterStartTag at hs'
    split at hs'
    · split at hs' <;> simp at hs'
    · split at hs' <;> simp at hs'
  | pseudo s1 hp1 he h => simp [fin] at hs'
  | unknown s1 hp1 h0 h1 h2 =>
    exfalso
    cases hp1 <;> simp [fin, adv, hs] at hs'

theorem StepTag.state_ne {s s' : Sc} (h : StepTag c s s') (hs : s.state = .WithinTag) :
    s'.state ≠ .BeforeAttributeValue := by
  intro hs'
  cases h with
  | ws h => simp [fin, adv, hs] at hs'
  | attrName h1 hw hb h => simp [fin] at hs'
  | selfClose s1 hp1 h => simp [fin] at hs'
  | close s1 hp1 h =>
    simp only [fin] at hs'
    unfold afterStartTag at hs'
    split at hs'
    · split at hs' <;> simp at hs'
    · split at hs' <;> simp at hs'
  | pseudo s1 hp1 he h => simp [fin] at hs'
  | unknown s1 hp1 h0 h1 h2 =>
    cases hp1 <;> simp [fin, adv, hs] at hs'

theorem Hist.tagStep {o : Nat} {s s0 s' : Sc} {ts : List Tok} (hx : StepTag c s0 s') (h0 : s0.state = .WithinTag)
    (hp : s0.pos < c.src.length) (hsp : (s0.hasSpace = true ↔ BehindSpace c.src ts) ∨ (rest c s0).head? = some 62) :
    Hist c o (ts ++ [s'.tok]) s' where
  last := .inr ⟨ts, rfl⟩
  space := fun _ h => .inl (hx.hist_space hsp h hp)
  noSpace := fun _ h => absurd h (hx.state_ne h0)
  named := fun _ h => hx.hist_named h0 h
  assigned := fun _ h => absurd h (hx.state_ne h0)

theorem Hist.other {o : Nat} {s' : Sc} {ts : List Tok} (h1 : s'.state ≠ .WithinTag) (h2 : s'.state ≠ .AfterAttributeName)
    (h3 : s'.state ≠ .BeforeAttributeValue) : Hist c o (ts ++ [s'.tok]) s' where
  last := .inr ⟨ts, rfl⟩
  space := fun _ h => absurd h (by simp [h1, h2])
  noSpace := fun _ h => absurd h h3
  named := fun _ h => absurd h h2
  assigned := fun _ h => absurd h h3

theorem Hist.inTag {o : Nat} {s' : Sc} {ts : List Tok} (h1 : s'.state = .WithinTag)
    (h2 : (s'.hasSpace = true ↔ BehindSpace c.src (ts ++ [s'.tok])) ∨ (s'.pos < c.src.length → (rest c s').head? = some 62)) :
    Hist c o (ts ++ [s'.tok]) s' where
  last := .inr ⟨ts, rfl⟩
  space := fun hp _ => h2.imp id (fun h => h hp)
  noSpace := fun _ h => by rw [h1] at h; cases h
  named := fun _ h => by rw [h1] at h; cases h
  assigned := fun _ h => by rw [h1] at h; cases h

theorem StepContent.hist {o : Nat} {s s' : Sc} {ts : List Tok} (hx : StepContent c s s') (hs : s.state = .WithinContent) :
    Hist c o (ts ++ [s'.tok]) s' := by
  cases hx <;> refine .other ?_ ?_ ?_ <;> simp [fin, adv, hs]

theorem Step.hist {o : Nat} {s s' : Sc} {ts : List Tok} (h : Step c s s') (hh : Hist c o ts s) :
    Hist c o (ts ++ [s'.tok]) s' := by
  cases h with
  | eos h =>
    exact ⟨.inr ⟨ts, rfl⟩, fun hp => absurd hp (by simp only [fin]; omega), fun hp => absurd hp (by simp only [fin]; omega),
      fun hp => absurd hp (by simp only [fin]; omega), fun hp => absurd hp (by simp only [fin]; omega)⟩
  | content _ h hs hx => exact hx.hist hs
  | endTagName h hs hb h0 => refine .other ?_ ?_ ?_ <;> simp [fin]
  | endTag _ h hs hx => cases hx <;> refine .other ?_ ?_ ?_ <;> simp [fin, adv, hs]
  | startTagName h hs hb h0 =>
    refine .inTag rfl (.inl ?_)
    rw [behindSpace_concat]
    simp [fin, Sc.tok]
  | startTagNoName h hs hb hn hw h0 =>
    refine .inTag rfl (.inr fun hp => ?_)
    simp only [fin, adv] at hp
    have := untilByte_get (c := 62) (s := rest c s) (by rw [rest_length]; omega)
    show (c.src.drop (s.pos + untilByte 62 (rest c s))).head? = _
    rw [rest, List.getElem?_drop] at this
    rw [List.head?_drop]
    exact this
  | tag _ h hs hx => exact Hist.tagStep (s := s) hx hs h (hh.space h (.inl hs))
  | afterNameWs h hs h0 =>
    refine ⟨.inr ⟨ts, rfl⟩, fun _ _ => .inl ?_, fun _ h => ?_, fun _ _ a => ?_, fun _ h => ?_⟩
    · rw [behindSpace_concat]; simp [fin, Sc.tok]
    · simp [fin, adv, hs] at h
    · rw [namedLast_concat]
      simp only [fin, adv, Sc.tok]
      rw [hh.named h hs a]
      simp
    · simp [fin, adv, hs] at h
  | assign h hs hw h0 =>
    refine ⟨.inr ⟨ts, rfl⟩, fun _ h => ?_, fun _ _ => ?_, fun _ h => ?_, fun _ _ a => ?_⟩
    · simp [fin] at h
    · rw [behindSpace_concat]; simp [fin, Sc.tok]
    · simp [fin] at h
    · rw [assignedTo_concat]
      simp only [fin, adv, Sc.tok]
      rw [hh.named h hs a]
      simp
  | afterNameTag _ h hs hw h0 hx => exact Hist.tagStep (s := s) hx rfl h (hh.space h (.inr hs))
  | valueWs h hs h0 =>
    refine .inTag rfl (.inl ?_)
    rw [behindSpace_concat]; simp [fin, Sc.tok]
  | valueUnquoted h hs hw hb h0 =>
    refine .inTag rfl (.inl ?_)
    rw [behindSpace_concat]; simp [fin, Sc.tok]
  | valueQuoted h hs hw hb h0 q hq h1 =>
    refine .inTag rfl (.inl ?_)
    rw [behindSpace_concat]; simp [fin, Sc.tok]
  | valueTag _ h hs hw hb h0 h1 hx =>
    refine Hist.tagStep (s := s) hx rfl h (.inl ?_)
    exact ⟨fun h => (by cases h), fun h' => absurd h' (hh.noSpace h hs)⟩
  | script p st h hs hp hl hst =>
    rcases hst with ⟨rfl, _⟩ | ⟨rfl, rfl, _⟩ <;> refine .other ?_ ?_ ?_ <;> simp [fin]
  | scriptContent _ h hs hl hx => exact hx.hist rfl
  | styleContent _ h hs hb h0 hx => exact hx.hist rfl
  | _ => refine .other ?_ ?_ ?_ <;> simp_all [fin, adv]

theorem Step.delim {s s' : Sc} (h : Step c s s') (ht : s'.tokenType = .DelimiterAssign) :
    s'.state = .BeforeAttributeValue := by
  have tg : ∀ {a}, ¬ StepTag c a s' := by
    intro a hx
    cases hx <;> simp [fin] at ht
  have ct : ∀ {a}, ¬ StepContent c a s' := by
    intro a hx
    cases hx <;> simp [fin] at ht
  cases h with
  | assign => rfl
  | content _ _ _ hx => exact absurd hx ct
  | scriptContent _ _ _ _ hx => exact absurd hx ct
  | styleContent _ _ _ _ _ hx => exact absurd hx ct
  | tag _ _ _ hx => exact absurd hx tg
  | afterNameTag _ _ _ _ _ hx => exact absurd hx tg
  | valueTag _ _ _ _ _ _ _ hx => exact absurd hx tg
  | endTag _ _ _ hx => cases hx <;> simp [fin] at ht
  | _ => simp [fin] at ht

theorem StepTag.odd {s s' : Sc} (hx : StepTag c s s') (hc : AsciiNext c.src) (hp : s.pos < c.src.length)
    (hs : s.state = .WithinTag) (h1 : s'.state = .WithinTag)
    (h2 : s'.hasSpace = true) (h3 : isBoundary c.src s'.pos = false) :
    isBoundary c.src s'.tokenOffset = true ∧ attrNameLen (c.src.drop s'.tokenOffset) = 0 ∧
      ∃ b, c.src[s'.tokenOffset]? = some b ∧ 128 ≤ b := by
  cases hx with
  | ws h =>
    simp only [fin, adv] at h3
    rw [rest, hc.ws h] at h3; cases h3
  | attrName h1 hw hb h => simp [fin] at h2
  | selfClose s1 hp1 h => simp [fin] at h1
  | close s1 hp1 h =>
    simp only [fin, adv] at h3
    rw [hp1.pos_eq, hc.head h (by omega)] at h3; cases h3
  | pseudo s1 hp1 he h => simp [fin] at h1
  | unknown s1 hp1 =>
    cases hp1 with
    | noSpace h => simp only [fin, adv] at h2; rw [h] at h2; cases h2
    | equals => simp [fin, adv] at h2
    | other h hb hn he =>
      refine ⟨hb, hn, _, List.getElem?_eq_getElem hp, ?_⟩
      rcases Nat.lt_or_ge c.src[s.pos] 128 with hlt | hge
      · have := hc _ _ (List.getElem?_eq_getElem hp) hlt
        simp only [fin, adv] at h3
        rw [this] at h3; cases h3
      · exact hge

theorem Step.odd {s s' : Sc} (h : Step c s s') (hc : AsciiNext c.src) (hle : s.pos ≤ c.src.length)
    (h1 : s'.state = .WithinTag) (h2 : s'.hasSpace = true) (h3 : isBoundary c.src s'.pos = false) :
    isBoundary c.src s'.tokenOffset = true ∧ attrNameLen (c.src.drop s'.tokenOffset) = 0 ∧
      ∃ b, c.src[s'.tokenOffset]? = some b ∧ 128 ≤ b := by
  have ct : ∀ {a}, a.state = .WithinContent → ¬ StepContent c a s' := by
    intro a ha hx
    cases hx <;> simp [fin, adv, ha] at h1
  cases h with
  | eos h =>
    have : s.pos = c.src.length := by omega
    simp only [fin] at h3
    rw [this, isBoundary_length] at h3; cases h3
  | content _ _ hs hx => exact absurd hx (ct hs)
  | scriptContent _ _ _ _ hx => exact absurd hx (ct rfl)
  | styleContent _ _ _ _ _ hx => exact absurd hx (ct rfl)
  | endTag _ _ hs hx => cases hx <;> simp [fin, adv, hs] at h1
  | startTagName h hs hb h0 => simp [fin] at h2
  | startTagNoName h hs hb hn hw h0 =>
    simp only [fin, adv] at h3
    rw [rest, untilByte_boundary (by omega) (by omega)] at h3; cases h3
  | tag _ h hs hx => exact hx.odd hc h hs h1 h2 h3
  | afterNameTag _ h hs hw h0 hx => exact hx.odd hc h rfl h1 h2 h3
  | valueWs h hs h0 =>
    simp only [fin, adv] at h3
    rw [rest, hc.ws h0] at h3; cases h3
  | valueUnquoted h hs hw hb h0 => simp [fin] at h2
  | valueQuoted h hs hw hb h0 q hq h1 => simp [fin] at h2
  | valueTag _ h hs hw hb h0 h4 hx => exact hx.odd hc h rfl h1 h2 h3
  | script p st h hs hp hl hst =>
    rcases hst with ⟨rfl, _⟩ | ⟨rfl, rfl, _⟩ <;> simp [fin] at h1
  | _ => simp_all [fin, adv]

theorem oddSpace_of_not {cp : Nat} (h1 : 128 ≤ cp) (h2 : attrNameChar cp = false) : OddSpace cp := by
  unfold attrNameChar isSpaceCP at h2
  unfold OddSpace
  simp only [Bool.not_eq_false', Bool.or_eq_true, Bool.and_eq_true, decide_eq_true_eq, beq_iff_eq] at h2
  omega

/-- Where no attribute name begins at a character that is not ASCII, the character is an odd
space. -/
theorem odd_at {cps : List Nat} {src : Str} (h : Utf8 cps src) {i b : Nat} (hb : isBoundary src i = true)
    (hn : attrNameLen (src.drop i) = 0) (hg : src[i]? = some b) (h128 : 128 ≤ b) :
    ∃ cp r, OddSpace cp ∧ src.drop i = encodeCP cp ++ r := by
  obtain ⟨hc, rfl⟩ := h
  obtain ⟨k, hk⟩ := utf8_boundary hc hb
  cases hck : cps.drop k with
  | nil =>
    rw [hck] at hk
    have : ((cps.flatMap encodeCP).drop i).head? = some b := by simpa using hg
    rw [hk] at this; simp at this
  | cons cp r =>
    have hm : cp ∈ cps := List.mem_of_mem_drop (by rw [hck]; exact List.mem_cons_self ..)
    have hh : ((cps.drop k).flatMap encodeCP).head? = some b := by rw [← hk]; simpa using hg
    rw [hck] at hh hk
    have hcp := codePoint_encodeCP (hc cp hm) (r.flatMap encodeCP)
    rw [List.flatMap_cons] at hh hk
    have h128' : 128 ≤ cp := by
      rcases Nat.lt_or_ge cp 128 with hlt | hge
      · simp [encodeCP, hlt] at hh; omega
      · exact hge
    refine ⟨cp, _, oddSpace_of_not h128' ?_, hk⟩
    cases ha : attrNameChar cp with
    | false => rfl
    | true =>
      exfalso
      rw [hk] at hn
      obtain ⟨b', t, he, _⟩ := encodeCP_cons cp
      rw [he] at hcp hn
      unfold attrNameLen at hn
      simp only [List.cons_append, firstRunLen] at hcp hn
      rw [hcp, ha] at hn
      simp at hn

theorem scanN_last {n : Nat} {s s' : Sc} (h : scanN c n s = .ok s') (hle : s.pos ≤ c.src.length) :
    s' = s ∨ ∃ s1, Step c s1 s' ∧ s1.pos ≤ c.src.length := by
  induction n generalizing s with
  | zero => cases h; exact .inl rfl
  | succ n ih =>
    unfold scanN at h
    obtain ⟨s1, h1, h⟩ := bind_ok h
    have hst := scan_step h1
    rcases ih h (hst.pos_le hle).2 with rfl | h
    · exact .inr ⟨s, hst, hle⟩
    · exact .inr h

theorem Step.ws_boundary {s s' : Sc} (h : Step c s s') (hc : AsciiNext c.src) (ht : s'.tokenType = .Whitespace) :
    isBoundary c.src s'.pos = true := by
  have tg : ∀ {a}, StepTag c a s' → isBoundary c.src s'.pos = true := by
    intro a hx
    cases hx with
    | ws h0 => exact hc.ws h0
    | _ => simp [fin] at ht
  have ct : ∀ {a}, ¬ StepContent c a s' := by
    intro a hx
    cases hx <;> simp [fin] at ht
  cases h with
  | content _ _ _ hx => exact absurd hx ct
  | scriptContent _ _ _ _ hx => exact absurd hx ct
  | styleContent _ _ _ _ _ hx => exact absurd hx ct
  | tag _ _ _ hx => exact tg hx
  | afterNameTag _ _ _ _ _ hx => exact tg hx
  | valueTag _ _ _ _ _ _ _ hx => exact tg hx
  | endTag _ _ _ hx =>
    cases hx with
    | ws h => exact hc.ws h
    | _ => simp [fin] at ht
  | endTagWs h hs hb hn h0 => exact hc.ws h0
  | startTagWs h hs hb hn h0 => exact hc.ws h0
  | afterNameWs h hs h0 => exact hc.ws h0
  | valueWs h hs h0 => exact hc.ws h0
  | _ => simp [fin] at ht

/-- The scan that follows these tokens panics. -/
def PanicNext (c : Cfg) (o : Nat) (ts : List Tok) : Prop :=
  SplitsCharacter c.src ts ∨
    (AssignedTo c.uni c.caseSensitive c.src ts b!"type" ∧ OpenQuote (c.src.drop (endOf o ts)))

theorem Hist.stuck_iff {o : Nat} {s : Sc} {ts : List Tok} (hh : Hist c o ts s) (hle : s.pos ≤ c.src.length)
    (hd : s.tokenType = .DelimiterAssign → s.state = .BeforeAttributeValue) : Stuck c s ↔ PanicNext c o ts := by
  have hend : endOf o ts = s.pos := by
    rcases hh.last with ⟨rfl, h⟩ | ⟨init, rfl⟩
    · exact h.symm
    · simp [endOf, Sc.tok]
  have hlt : isBoundary c.src s.pos = false → s.pos < c.src.length := by
    intro hb
    rcases Nat.lt_or_eq_of_le hle with h | h
    · exact h
    · rw [h, isBoundary_length] at hb; cases hb
  have h62 : isBoundary c.src s.pos = false → (rest c s).head? ≠ some 62 := by
    intro hb h
    rw [isBoundary_of_get (rest_get h) (by decide)] at hb
    cases hb
  constructor
  · rintro (⟨h1, h2, h3⟩ | ⟨h1, h2, h3⟩)
    · have hb := ((hh.space (hlt h3) (.inl h1)).resolve_right (h62 h3)).1 h2
      refine .inl ⟨hb, ?_⟩
      rcases hh.last with ⟨rfl, _⟩ | ⟨init, rfl⟩
      · simp [BehindSpace] at hb
      · exact ⟨s.tok, by simp, h1, h3⟩
    · refine .inr ⟨(hh.assigned ?_ h1 _).1 h2, by rw [hend]; exact h3⟩
      obtain ⟨q, v, b, _, hr, _⟩ := h3
      have := rest_length c s
      rw [hr, List.length_cons] at this
      omega
  · rintro (⟨h1, x, h2, h3, h4⟩ | ⟨h1, h2⟩)
    · rcases hh.last with ⟨rfl, _⟩ | ⟨init, rfl⟩
      · cases h2
      · simp at h2
        subst h2
        exact .inl ⟨h3, ((hh.space (hlt h4) (.inl h3)).resolve_right (h62 h4)).2 h1, h4⟩
    · rw [hend] at h2
      have hs : s.state = .BeforeAttributeValue := by
        rcases hh.last with ⟨rfl, _⟩ | ⟨init, rfl⟩
        · simp [AssignedTo] at h1
        · exact hd (assignedTo_concat.1 h1).1
      refine .inr ⟨hs, (hh.assigned ?_ hs _).2 h1, h2⟩
      obtain ⟨q, v, b, _, hr, _⟩ := h2
      have := congrArg List.length hr
      simp at this
      omega

theorem firstTokens_hist {o n : Nat} {s : Sc} {ts l : List Tok} (hc : AsciiNext c.src) (hh : Hist c o ts s)
    (hi : WInv c s) (hle : s.pos ≤ c.src.length)
    (hd : s.tokenType = .DelimiterAssign → s.state = .BeforeAttributeValue) (h : firstTokens c n s = .ok l) :
    ∃ s', scanN c n s = .ok s' ∧ Hist c o (ts ++ l) s' ∧ WInv c s' ∧ s'.pos ≤ c.src.length ∧
      (s'.tokenType = .DelimiterAssign → s'.state = .BeforeAttributeValue) := by
  induction n generalizing s ts l with
  | zero => cases h; exact ⟨s, rfl, by simpa using hh, hi, hle, hd⟩
  | succ n ih =>
    unfold firstTokens at h
    obtain ⟨s1, h1, h⟩ := bind_ok h
    obtain ⟨l1, h2, h⟩ := bind_ok h
    cases h
    have hst := scan_step h1
    obtain ⟨s', e, h3, h4⟩ := ih (hst.hist hh) (hst.winv hc hi) (hst.pos_le hle).2 hst.delim h2
    refine ⟨s', by unfold scanN; rw [h1]; exact e, by simpa using h3, h4⟩

theorem firstTokens_of_scanN {n : Nat} {s s' : Sc} (h : scanN c n s = .ok s') : ∃ l, firstTokens c n s = .ok l := by
  induction n generalizing s with
  | zero => exact ⟨[], rfl⟩
  | succ n ih =>
    unfold scanN at h
    obtain ⟨s1, h1, h⟩ := bind_ok h
    obtain ⟨l, hl⟩ := ih h
    exact ⟨s1.tok :: l, by unfold firstTokens; rw [h1]; simp [bind, Except.bind, hl, pure, Except.pure]⟩

theorem scanN_succ {n : Nat} {s s1 : Sc} (h : scanN c n s = .ok s1) : scanN c (n + 1) s = scan c s1 := by
  induction n generalizing s with
  | zero =>
    cases h
    unfold scanN
    cases scan c s1 <;> simp [bind, Except.bind, scanN]
  | succ n ih =>
    unfold scanN at h
    obtain ⟨s2, h2, h⟩ := bind_ok h
    unfold scanN
    rw [h2]
    exact ih h

/-- If the text is scanned to its end, every number of scans returns. -/
theorem tokensF_scanN {f : Nat} {s : Sc} {ts : List Tok} (h : tokensF c f s = .ok ts) (n : Nat) :
    ∃ s', scanN c n s = .ok s' := by
  have hend : ∀ (n : Nat) (s : Sc), c.src.length ≤ s.pos → ∃ s', scanN c n s = .ok s' := by
    intro n
    induction n with
    | zero => exact fun s _ => ⟨s, rfl⟩
    | succ n ih =>
      intro s hs
      obtain ⟨s', h'⟩ := ih (fin s s.pos .EOS none) hs
      exact ⟨s', by unfold scanN; rw [scan_eos hs]; exact h'⟩
  induction f generalizing s ts n with
  | zero => cases h
  | succ f ih =>
    unfold tokensF at h
    obtain ⟨s1, h1, h⟩ := bind_ok h
    cases n with
    | zero => exact ⟨s, rfl⟩
    | succ n =>
      split at h
      · rename_i he
        have := (scan_step h1).eos_iff.1 he
        exact hend _ s this
      · obtain ⟨l, h2, _⟩ := bind_ok h
        obtain ⟨s', h'⟩ := ih h2 n
        exact ⟨s', by unfold scanN; rw [h1]; exact h'⟩

theorem tokensF_error {f : Nat} {s : Sc} (hm : mu c s < f) {e : Panic} (h : tokensF c f s = .error e) :
    ∃ n s' e', scanN c n s = .ok s' ∧ scan c s' = .error e' := by
  induction f generalizing s e with
  | zero => omega
  | succ f ih =>
    cases h1 : scan c s with
    | error e' => exact ⟨0, s, e', rfl, h1⟩
    | ok s1 =>
      unfold tokensF at h
      rw [h1] at h
      simp only [bind, Except.bind] at h
      split at h
      · cases h
      · rename_i he
        have hlt := (scan_step h1).mu_lt he
        cases h2 : tokensF c f s1 with
        | ok l => rw [h2] at h; cases h
        | error e' =>
          obtain ⟨n, s', e', h3, h4⟩ := ih (s := s1) (by omega) h2
          exact ⟨n + 1, s', e', by unfold scanN; rw [h1]; exact h3, h4⟩

theorem tokens_panic_iff (hc : AsciiNext c.src) (hlast : LastByte c.src) {o : Nat} {st : SS}
    (ho : isBoundary c.src o = true) :
    (∃ e, tokens c (.new o st) = .error e) ↔
      ∃ n ts, firstTokens c n (.new o st) = .ok ts ∧ PanicNext c o ts := by
  have hi : WInv c (.new o st) := .inl ho
  have hle : (Sc.new o st).pos ≤ c.src.length := isBoundary_le ho
  have hd : (Sc.new o st).tokenType = .DelimiterAssign → (Sc.new o st).state = .BeforeAttributeValue := by
    intro h; cases h
  constructor
  · rintro ⟨e, h⟩
    obtain ⟨n, s', e', h1, h2⟩ := tokensF_error (by have := mu_le c (.new o st); omega) h
    obtain ⟨l, hl⟩ := firstTokens_of_scanN h1
    obtain ⟨s2, h3, h4, h5, h6, h7⟩ := firstTokens_hist hc (Hist.init o st) hi hle hd hl
    rw [h1] at h3
    cases h3
    exact ⟨n, l, hl, (h4.stuck_iff h6 h7).1 ((scan_panics_iff hc hlast h5 h6).1 ⟨e', h2⟩)⟩
  · rintro ⟨n, ts, h1, h2⟩
    obtain ⟨s2, h3, h4, h5, h6, h7⟩ := firstTokens_hist hc (Hist.init o st) hi hle hd h1
    obtain ⟨e, he⟩ := (scan_panics_iff hc hlast h5 h6).2 ((h4.stuck_iff h6 h7).2 h2)
    cases h : tokens c (.new o st) with
    | error e => exact ⟨e, rfl⟩
    | ok l =>
      obtain ⟨s', h'⟩ := tokensF_scanN h (n + 1)
      rw [scanN_succ h3, he] at h'
      cases h'

theorem split_odd {cps : List Nat} (hu : Utf8 cps c.src) {o n : Nat} {st : SS} (ho : isBoundary c.src o = true)
    {ts : List Tok} (h : firstTokens c n (.new o st) = .ok ts) (hs : SplitsCharacter c.src ts) :
    ∃ x cp r, ts.getLast? = some x ∧ x.type = .Unknown ∧ OddSpace cp ∧ c.src.drop x.offset = encodeCP cp ++ r := by
  have hc := asciiNext_of_utf8 hu
  obtain ⟨s', h1, h2, h3, h4, h5⟩ := firstTokens_hist hc (Hist.init o st) (.inl ho) (isBoundary_le ho)
    (fun h => by cases h) h
  have hst := (h2.stuck_iff h4 h5).2 (.inl hs)
  obtain ⟨hb, x, hx, h6, h7⟩ := hs
  rcases h2.last with ⟨e, _⟩ | ⟨init, e⟩
  · simp only [List.nil_append] at e; rw [e] at hx; cases hx
  simp only [List.nil_append] at e
  subst e
  simp at hx
  subst hx
  have hlt : isBoundary c.src s'.pos = false := h7
  rcases hst with ⟨k1, k2, k3⟩ | ⟨k1, _⟩
  · rcases scanN_last h1 (isBoundary_le ho) with rfl | ⟨s1, k4, k5⟩
    · rw [show (Sc.new o st).pos = o from rfl, ho] at k3; cases k3
    · obtain ⟨m1, m2, b, m3, m4⟩ := k4.odd hc k5 k1 k2 k3
      obtain ⟨cp, r, m5, m6⟩ := odd_at hu m1 m2 m3 m4
      refine ⟨s'.tok, cp, r, by simp, ?_, m5, m6⟩
      rw [behindSpace_concat] at hb
      rcases hb with hb | hb
      · exfalso
        have hb' : s'.tokenType = .Whitespace := hb
        exact absurd (k4.ws_boundary hc hb') (by rw [hlt]; simp)
      · exact hb.1
  · rw [show s'.state = .WithinTag from h6] at k1; cases k1

theorem scriptLoop_boundary {f st pos p : Nat} (hc : AsciiNext c.src) (hb : isBoundary c.src pos = true)
    (h : scriptLoop c f st pos = .ok (.at p)) : isBoundary c.src p = true := by
  induction f generalizing st pos with
  | zero => cases h
  | succ f ih =>
    unfold scriptLoop at h
    split at h
    · cases h; exact hb
    · rw [sliceStr_eq (isBoundary_le hb) hb (isBoundary_length _), bytesIn_to_end] at h
      change (match scriptFind (List.drop pos c.src) with
        | none => _
        | some (k, i, n) => _) = _ at h
      split at h
      · cases h
      · rename_i k i n hfd
        obtain ⟨hn, hin, hma⟩ := scriptFind_le hfd
        rw [List.drop_drop] at hma
        have hb' := hc.scriptMatch hma
        simp only at h
        split at h
        · exact ih hb' h
        · exact ih hb' h
        · exact ih hb' h
        · split at h
          · exact ih hb' h
          · have e : subU (pos + i + n) n = .ok (pos + i) := by
              unfold subU; rw [if_pos (by omega)]; simp
            rw [e] at h
            cases h
            have hlt : ∃ b, (c.src.drop (pos + i)).head? = some b ∧ b < 128 := by
              unfold scriptMatchAt at hma
              have key : ∀ {l : Str} {b : Nat}, l.isPrefixOf (c.src.drop (pos + i)) = true → l.head? = some b →
                  (c.src.drop (pos + i)).head? = some b := by
                intro l b hl hb
                obtain ⟨t, rfl⟩ := head_cons hb
                have := prefix_get hl (i := 0) (b := b) rfl
                rwa [List.head?_eq_getElem?]
              split at hma
              · rename_i hl; exact ⟨60, key hl rfl, by omega⟩
              · split at hma
                · rename_i hl; exact ⟨45, key hl rfl, by omega⟩
                · split at hma
                  · rename_i hl; exact ⟨60, key hl rfl, by omega⟩
                  · split at hma
                    · rename_i hl; exact ⟨60, key hl rfl, by omega⟩
                    · cases hma
            obtain ⟨b, h1, h2⟩ := hlt
            rw [List.head?_drop] at h1
            exact isBoundary_of_get h1 (by unfold isCont; simp; omega)

theorem prefix_next {src l : Str} {p b k : Nat} (hc : AsciiNext src) (h : l.isPrefixOf (src.drop p) = true)
    (hn : l.length = k + 1) (hl : l[k]? = some b) (hb : b < 128) : isBoundary src (p + (k + 1)) = true := by
  have := hc.prefixLen h hn hl hb
  rwa [hn] at this

/-- Tokens other than `Unknown` end between two characters. -/
theorem Step.end_boundary {s s' : Sc} (h : Step c s s') (hc : AsciiNext c.src) (hle : s.pos ≤ c.src.length)
    (hi : WInv c s) (ht : s'.tokenType ≠ .Unknown) : isBoundary c.src s'.pos = true := by
  have hb0 : s.state ≠ .WithinContent → s.state ≠ .WithinTag → isBoundary c.src s.pos = true :=
    fun h1 h2 => hi.resolve_right (by simp [h1, h2])
  have ct : ∀ {a : Sc}, StepContent c a s' → a.pos = s.pos → s.pos < c.src.length → isBoundary c.src s'.pos = true := by
    intro a hx ha hp
    rw [← ha] at hp
    clear h
    cases hx with
    | startComment h => exact prefix_next hc h (k := 3) rfl rfl (by omega)
    | startDoctype h hb =>
      have := prefix_get h (i := 8) (b := 101) rfl
      rw [List.getElem?_map] at this
      simp only [Option.map_eq_some_iff] at this
      obtain ⟨b, hb1, hb2⟩ := this
      exact hc.after (p := a.pos) hb1 (by unfold lowerByte at hb2; split at hb2 <;> omega)
    | endTagOpen h => exact prefix_next hc h (k := 1) rfl rfl (by omega)
    | startTagOpen h => exact hc.head h (by omega)
    | content h h0 => exact untilByte_boundary (by omega) (by omega)
  have tg : ∀ {a : Sc}, StepTag c a s' → a.pos = s.pos → s.pos < c.src.length → isBoundary c.src s'.pos = true := by
    intro a hx ha hp
    rw [← ha] at hp
    clear h
    cases hx with
    | ws h => exact hc.ws h
    | attrName hs hw hb h =>
      have : isBoundary (rest c a) (attrNameLen (rest c a)) = true := firstRunLen_boundary h
      rw [rest, isBoundary_drop (by omega)] at this
      exact this
    | selfClose s1 hp1 h =>
      show isBoundary c.src (s1.pos + 2) = true
      rw [hp1.pos_eq]
      exact prefix_next hc h (k := 1) rfl rfl (by omega)
    | close s1 hp1 h =>
      show isBoundary c.src (s1.pos + 1) = true
      rw [hp1.pos_eq]
      exact hc.head h (by omega)
    | pseudo s1 hp1 he h =>
      show isBoundary c.src s1.pos = true
      rw [hp1.pos_eq]
      exact isBoundary_of_get (rest_get h) (by decide)
    | unknown s1 hp1 h0 => exact absurd rfl ht
  cases h with
  | eos h =>
    have : s.pos = c.src.length := by omega
    show isBoundary c.src s.pos = true
    rw [this]; exact isBoundary_length _
  | content _ h hs hx => exact ct hx rfl h
  | commentEnd h hs hx => exact prefix_next hc hx (k := 2) rfl rfl (by omega)
  | comment h hs hx h0 => exact untilLit_boundary (b := 45) rfl (by omega) (by omega)
  | doctypeEnd h hs hx => exact hc.head hx (by omega)
  | doctype h hs hx h0 => exact untilByte_boundary (by omega) (by omega)
  | endTagName h hs hb h0 =>
    have : isBoundary (rest c s) (elementNameLen c.uni (rest c s)) = true := firstRunLen_boundary h0
    rw [rest, isBoundary_drop (by omega)] at this
    exact this
  | endTagWs h hs hb hn h0 => exact hc.ws h0
  | endTagNoName h hs hb hn hw h0 => exact untilByte_boundary (by omega) (by omega)
  | endTagImmediate h hs hb hn hw h0 => exact hc.head h0 (by omega)
  | endTag _ h hs hx =>
    cases hx with
    | ws h0 => exact hc.ws h0
    | close h0 => exact hc.head h0 (by omega)
    | pseudo he h0 => exact isBoundary_of_get (rest_get h0) (by decide)
    | unknown => exact absurd rfl ht
  | startTagName h hs hb h0 =>
    have : isBoundary (rest c s) (elementNameLen c.uni (rest c s)) = true := firstRunLen_boundary h0
    rw [rest, isBoundary_drop (by omega)] at this
    exact this
  | startTagWs h hs hb hn h0 => exact hc.ws h0
  | startTagNoName h hs hb hn hw h0 => exact untilByte_boundary (by omega) (by omega)
  | startTagImmediate h hs hb hn hw h0 => exact hc.head h0 (by omega)
  | tag _ h hs hx => exact tg hx rfl h
  | afterNameWs h hs h0 => exact hc.ws h0
  | assign h hs hw h0 => exact hc.head h0 (by omega)
  | afterNameTag _ h hs hw h0 hx => exact tg hx rfl h
  | valueWs h hs h0 => exact hc.ws h0
  | valueUnquoted h hs hw hb h0 => exact hc.unquoted h0
  | valueQuoted h hs hw hb h0 q hq h1 => exact hc.quoted hq h1
  | valueTag _ h hs hw hb h0 h1 hx => exact tg hx rfl h
  | script p st h hs hp hl hst =>
    rcases hst with ⟨rfl, hst⟩ | ⟨rfl, rfl, _⟩
    · exact scriptLoop_boundary hc (hb0 (by rw [hs]; simp) (by rw [hs]; simp)) hst
    · exact isBoundary_length _
  | scriptContent _ h hs hl hx => exact ct hx rfl h
  | style h hs hb h0 => exact untilLit_boundary (b := 60) rfl (by omega) (by omega)
  | styleContent _ h hs hb h0 hx => exact ct hx rfl h

theorem scanN_before {n : Nat} {s s' : Sc} (h : scanN c n s = .ok s') (hi : WInv c s) (hle : s.pos ≤ c.src.length)
    (hc : AsciiNext c.src) :
    (n = 0 ∧ s' = s) ∨ ∃ s1, 0 < n ∧ Step c s1 s' ∧ WInv c s1 ∧ s1.pos ≤ c.src.length := by
  induction n generalizing s with
  | zero => cases h; exact .inl ⟨rfl, rfl⟩
  | succ n ih =>
    unfold scanN at h
    obtain ⟨s1, h1, h⟩ := bind_ok h
    have hst := scan_step h1
    rcases ih h (hst.winv hc hi) (hst.pos_le hle).2 with ⟨_, rfl⟩ | ⟨s2, _, h2⟩
    · exact .inr ⟨s, by omega, hst, hi, hle⟩
    · exact .inr ⟨s2, by omega, h2⟩

end Html
