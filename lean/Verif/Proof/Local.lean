import Verif.Proof.StartTag

/-! # Start tags are read the same way in a part of the text -/

namespace Html
open Spec

/-- What one scan in a start tag does. -/
structure TagOut where
  type : TT
  len : Nat
  state : SS
  hasSpace : Bool

/-- State `WithinTag`. -/
def tagArm (hs : Bool) (r : Str) : TagOut :=
  if 0 < wsLen r then ⟨.Whitespace, wsLen r, .WithinTag, true⟩
  else if hs = true ∧ 0 < attrNameLen r then ⟨.AttributeName, attrNameLen r, .AfterAttributeName, false⟩
  else if (b!"/>").isPrefixOf r then ⟨.StartTagSelfClose, 2, .WithinContent, hs⟩
  else if r.head? = some 62 then ⟨.StartTagClose, 1, .WithinContent, hs⟩
  else ⟨.Unknown, 1, .WithinTag, hs && r.head? != some 61⟩

/-- The states of a start tag. -/
def tagOut (u : Uni) (st : SS) (hs : Bool) (r : Str) : TagOut :=
  match st with
  | .AfterOpeningStartTag =>
    if 0 < elementNameLen u r then ⟨.StartTag, elementNameLen u r, .WithinTag, false⟩
    else if 0 < wsLen r then ⟨.Whitespace, wsLen r, .AfterOpeningStartTag, hs⟩
    else if 0 < untilByte 62 r then ⟨.Unknown, untilByte 62 r, .WithinTag, hs⟩
    else ⟨.StartTagClose, 1, .WithinContent, hs⟩
  | .AfterAttributeName =>
    if 0 < wsLen r then ⟨.Whitespace, wsLen r, .AfterAttributeName, true⟩
    else if r.head? = some 61 then ⟨.DelimiterAssign, 1, .BeforeAttributeValue, hs⟩
    else tagArm hs r
  | .BeforeAttributeValue =>
    if 0 < wsLen r then ⟨.Whitespace, wsLen r, .WithinTag, true⟩
    else if 0 < unquotedLen r then ⟨.AttributeValue, unquotedFullLen r, .WithinTag, false⟩
    else if r.head? = some 39 then ⟨.AttributeValue, quotedLen 39 r, .WithinTag, false⟩
    else if r.head? = some 34 then ⟨.AttributeValue, quotedLen 34 r, .WithinTag, false⟩
    else tagArm false r
  | _ => tagArm hs r

/-- The scanner went from `s` to `s'` as described. -/
structure Does (o : TagOut) (s s' : Sc) : Prop where
  type : s'.tokenType = o.type
  pos : s'.pos = s.pos + o.len
  state : isBracket o.type = false → s'.state = o.state ∧ s'.hasSpace = o.hasSpace

variable {c : Cfg}

theorem StepTag.does {a s' : Sc} (h : StepTag c a s') (ha : a.state = .WithinTag)
    (hl : isBracket s'.tokenType = true → a.pos < s'.pos) : Does (tagArm a.hasSpace (rest c a)) a s' := by
  have ne62 : (rest c a).head? = some 62 → wsLen (rest c a) = 0 ∧ attrNameLen (rest c a) = 0 := by
    intro h
    refine ⟨wsLen_zero_iff.2 (fun b hb => by rw [h] at hb; cases hb; rfl), ?_⟩
    rcases Nat.eq_zero_or_pos (attrNameLen (rest c a)) with h0 | h0
    · exact h0
    · obtain ⟨b, t, he, hc⟩ := firstRunLen_head h0
      rw [he] at h
      cases h
      cases hc
  have ne47 : (b!"/>").isPrefixOf (rest c a) = true → wsLen (rest c a) = 0 ∧ attrNameLen (rest c a) = 0 := by
    intro h
    rw [List.isPrefixOf_iff_prefix] at h
    obtain ⟨t, ht⟩ := h
    rw [← ht]
    exact ⟨rfl, rfl⟩
  cases h with
  | ws h => unfold tagArm; rw [if_pos h]; exact ⟨rfl, rfl, fun _ => ⟨ha, rfl⟩⟩
  | attrName h1 hw hb h =>
    unfold tagArm
    rw [if_neg (by omega), if_pos ⟨h1, h⟩]
    exact ⟨rfl, rfl, fun _ => ⟨rfl, rfl⟩⟩
  | selfClose s1 hp1 h =>
    have e := ne47 h
    unfold tagArm
    rw [if_neg (by omega), if_neg (by omega), if_pos h]
    exact ⟨rfl, by simp [fin, adv, hp1.pos_eq], by simp [isBracket]⟩
  | close s1 hp1 h =>
    have e := ne62 h
    have : (b!"/>").isPrefixOf (rest c a) = false := by
      obtain ⟨t, ht⟩ := head_cons h
      rw [ht]; rfl
    unfold tagArm
    rw [if_neg (by omega), if_neg (by omega), if_neg (by rw [this]; decide), if_pos h]
    exact ⟨rfl, by simp [fin, adv, hp1.pos_eq], by simp [isBracket]⟩
  | pseudo s1 hp1 he h =>
    have := hl rfl
    simp [fin, hp1.pos_eq] at this
  | unknown s1 hp1 h0 h1 h2 h3 =>
    have hn : ¬ (a.hasSpace = true ∧ 0 < attrNameLen (rest c a)) := by
      rintro ⟨x1, x2⟩
      cases hp1 with
      | noSpace h => rw [h] at x1; cases x1
      | equals h hb hn he => omega
      | other h hb hn he => omega
    unfold tagArm
    rw [if_neg (by omega), if_neg hn, if_neg (by rw [h1]; decide), if_neg h2]
    refine ⟨rfl, by simp [fin, adv, hp1.pos_eq], fun _ => ⟨?_, ?_⟩⟩
    · simp [fin, adv, hp1.state_eq, ha]
    · cases hp1 with
      | noSpace h => simp [fin, adv, h]
      | equals h hb hn he => simp [fin, adv, he]
      | other h hb hn he => simp only [fin, adv, h, Bool.true_and]; simp [he]

/-- In a start tag a scan does what `tagOut` says (unless it pretends a `>`). -/
theorem Step.does {s s' : Sc} (h : Step c s s') (hne : s'.tokenType ≠ .EOS)
    (hs : s.state.inStart = true) (hl : isBracket s'.tokenType = true → s.pos < s'.pos) :
    Does (tagOut c.uni s.state s.hasSpace (rest c s)) s s' := by
  have ns : ∀ {st}, s.state = st → st.inStart = false → False := fun h1 h2 => by
    rw [h1, h2] at hs; cases hs
  cases h with
  | eos h => exact absurd rfl hne
  | tag _ h hs hx => rw [hs]; exact hx.does hs hl
  | afterNameTag _ h hs hw h0 hx =>
    rw [hs]
    unfold tagOut
    simp only
    rw [if_neg (by omega), if_neg h0]
    obtain ⟨x1, x2, x3⟩ := hx.does rfl hl
    exact ⟨x1, x2, x3⟩
  | valueTag _ h hs hw hb h0 h1 hx =>
    rw [hs]
    unfold tagOut
    simp only
    rw [if_neg (by omega), if_neg (by omega), if_neg h1.1, if_neg h1.2]
    obtain ⟨x1, x2, x3⟩ := hx.does rfl hl
    exact ⟨x1, x2, x3⟩
  | startTagName h hs hb h0 =>
    rw [hs]; unfold tagOut; simp only
    rw [if_pos h0]; exact ⟨rfl, rfl, fun _ => ⟨rfl, rfl⟩⟩
  | startTagWs h hs hb hn h0 =>
    rw [hs]; unfold tagOut; simp only
    rw [if_neg (by omega), if_pos h0]; exact ⟨rfl, rfl, fun _ => ⟨hs, rfl⟩⟩
  | startTagNoName h hs hb hn hw h0 =>
    rw [hs]; unfold tagOut; simp only
    rw [if_neg (by omega), if_neg (by omega), if_pos h0]; exact ⟨rfl, rfl, fun _ => ⟨rfl, rfl⟩⟩
  | startTagImmediate h hs hb hn hw h0 =>
    have : untilByte 62 (rest c s) = 0 := by
      obtain ⟨t, ht⟩ := head_cons h0
      rw [ht]; simp [untilByte]
    rw [hs]; unfold tagOut; simp only
    rw [if_neg (by omega), if_neg (by omega), if_neg (by omega)]
    exact ⟨rfl, rfl, by simp [isBracket]⟩
  | afterNameWs h hs h0 =>
    rw [hs]; unfold tagOut; simp only
    rw [if_pos h0]; exact ⟨rfl, rfl, fun _ => ⟨hs, rfl⟩⟩
  | assign h hs hw h0 =>
    rw [hs]; unfold tagOut; simp only
    rw [if_neg (by omega), if_pos h0]; exact ⟨rfl, rfl, fun _ => ⟨rfl, rfl⟩⟩
  | valueWs h hs h0 =>
    rw [hs]; unfold tagOut; simp only
    rw [if_pos h0]; exact ⟨rfl, rfl, fun _ => ⟨rfl, rfl⟩⟩
  | valueUnquoted h hs hw hb h0 =>
    rw [hs]; unfold tagOut; simp only
    rw [if_neg (by omega), if_pos h0]; exact ⟨rfl, rfl, fun _ => ⟨rfl, rfl⟩⟩
  | valueQuoted h hs hw hb h0 q hq h1 =>
    rw [hs]; unfold tagOut; simp only
    rcases hq with rfl | rfl
    · rw [if_neg (by omega), if_neg (by omega), if_pos h1]; exact ⟨rfl, rfl, fun _ => ⟨rfl, rfl⟩⟩
    · rw [if_neg (by omega), if_neg (by omega), if_neg (by rw [h1]; decide), if_pos h1]
      exact ⟨rfl, rfl, fun _ => ⟨rfl, rfl⟩⟩
  | _ => exact (ns (by assumption) rfl).elim

/-! ### The text up to a `>` decides -/

/-- Number of bytes of the character that starts with `b`. -/
def charLen (b : Nat) : Nat := if b < 128 then 1 else if b < 224 then 2 else if b < 240 then 3 else 4

/-- No character is cut off at the end. -/
def Whole : Str → Prop
  | [] => True
  | b :: t => (isCont b = true ∨ charLen b ≤ 1 + t.length) ∧ Whole t

theorem codePoint_append {b : Nat} {t y y' : Str} (h : charLen b ≤ 1 + t.length) :
    codePoint (b :: t ++ y) = codePoint (b :: t ++ y') := by
  unfold charLen at h
  simp only [List.cons_append, codePoint]
  split at h
  · simp [*]
  · rename_i h1
    simp only [h1, if_false]
    split at h
    · rename_i h2
      simp only [h2, if_true]
      match t, h with
      | _ :: _, _ => simp only [List.cons_append, List.headD_cons]
    · rename_i h2
      simp only [h2, if_false]
      split at h
      · rename_i h3
        simp only [h3, if_true]
        match t, h with
        | _ :: _ :: _, _ => simp only [List.cons_append, List.headD_cons, List.tail_cons]
      · rename_i h3
        simp only [h3, if_false]
        match t, h with
        | _ :: _ :: _ :: _, _ => simp only [List.cons_append, List.headD_cons, List.tail_cons]

theorem codePoint_local {b : Nat} {t : Str} (h : isCont b = true ∨ charLen b ≤ 1 + t.length) (y y' : Str) :
    codePoint (b :: (t ++ 62 :: y)) = codePoint (b :: (t ++ 62 :: y')) := by
  have h2 : charLen b ≤ 1 + (t ++ [62]).length := by
    rcases h with h | h
    · simp only [isCont, Bool.and_eq_true, decide_eq_true_eq] at h
      unfold charLen
      rw [if_neg (by omega), if_pos (by omega)]
      simp; omega
    · simp; omega
  have := codePoint_append (y := y) (y' := y') h2
  simpa using this

theorem runLen_local {p : Nat → Bool} {x : Str} (hp : p 62 = false) (hx : Whole x) (y y' : Str) :
    runLen p (x ++ 62 :: y) = runLen p (x ++ 62 :: y') := by
  induction x with
  | nil => simp [runLen, isCont, codePoint, hp]
  | cons b t ih =>
    simp only [List.cons_append, runLen, ih hx.2, codePoint_local hx.1 y y']

theorem firstRunLen_local {p q : Nat → Bool} {x : Str} (hp : p 62 = false) (hq : q 62 = false)
    (hx : Whole x) (y y' : Str) :
    firstRunLen p q (x ++ 62 :: y) = firstRunLen p q (x ++ 62 :: y') := by
  cases x with
  | nil => simp [firstRunLen, codePoint, hp]
  | cons b t => simp only [List.cons_append, firstRunLen, codePoint_local hx.1 y y', runLen_local hq hx.2 y y']

theorem wsLen_local (x y y' : Str) : wsLen (x ++ 62 :: y) = wsLen (x ++ 62 :: y') := by
  induction x with
  | nil => rfl
  | cons b t ih => simp only [List.cons_append, wsLen, ih]

theorem untilByte_local (x y y' : Str) : untilByte 62 (x ++ 62 :: y) = untilByte 62 (x ++ 62 :: y') := by
  induction x with
  | nil => simp [untilByte]
  | cons b t ih => simp only [List.cons_append, untilByte, ih]

theorem head_local (x y y' : Str) : (x ++ 62 :: y).head? = (x ++ 62 :: y').head? := by
  cases x <;> rfl

theorem tagArm_local {hs : Bool} {x : Str} (hx : Whole x) (y y' : Str) :
    tagArm hs (x ++ 62 :: y') = tagArm hs (x ++ 62 :: y) := by
  have e1 : attrNameLen (x ++ 62 :: y') = attrNameLen (x ++ 62 :: y) :=
    firstRunLen_local (by decide) (by decide) hx _ _
  have e2 : (b!"/>").isPrefixOf (x ++ 62 :: y') = (b!"/>").isPrefixOf (x ++ 62 :: y) := by
    match x with
    | [] => rfl
    | [b] => simp [List.isPrefixOf]
    | b :: b2 :: t => simp [List.isPrefixOf]
  unfold tagArm
  rw [wsLen_local x y' y, e1, e2, head_local x y' y]

theorem untilByte_mem_local {q : Nat} {x : Str} (h : q ∈ x) (y y' : Str) :
    untilByte q (x ++ y) = untilByte q (x ++ y') ∧ untilByte q (x ++ y) < x.length := by
  induction x with
  | nil => cases h
  | cons b t ih =>
    simp only [List.cons_append, untilByte]
    split
    · simp
    · rename_i hb
      have h2 : q ∈ t := by
        rcases List.mem_cons.1 h with h | h
        · exact absurd h.symm hb
        · exact h
      obtain ⟨i1, i2⟩ := ih h2
      simp only [List.length_cons, i1] at i2 ⊢
      exact ⟨trivial, by omega⟩

theorem untilByte_notMem {q : Nat} {x : Str} (h : q ∉ x) (y : Str) :
    untilByte q (x ++ y) = x.length + untilByte q y := by
  induction x with
  | nil => simp
  | cons b t ih =>
    simp only [List.mem_cons, not_or] at h
    simp only [List.cons_append, untilByte, if_neg (fun e : b = q => h.1 e.symm), ih h.2, List.length_cons]
    omega

/-- A quoted value that ends in front of the `>` does so whatever follows. -/
theorem quotedLen_local {q : Nat} {x : Str} (hq : q = 39 ∨ q = 34) {y y' : Str}
    (h0 : (x ++ 62 :: y).head? = some q)
    (h : quotedLen q (x ++ 62 :: y) ≤ x.length) :
    quotedLen q (x ++ 62 :: y') = quotedLen q (x ++ 62 :: y) := by
  cases x with
  | nil => simp only [List.nil_append, List.head?_cons, Option.some.injEq] at h0; omega
  | cons b t =>
    unfold quotedLen at h ⊢
    simp only [List.cons_append, List.drop_succ_cons, List.drop_zero, List.length_cons,
      List.length_append] at h ⊢
    by_cases hm : q ∈ t
    · obtain ⟨i1, i2⟩ := untilByte_mem_local hm (62 :: y) (62 :: y')
      rw [← i1]
      rw [if_pos (by omega), if_pos (by omega)]
    · rw [untilByte_notMem hm] at h
      have : untilByte q (62 :: y) = 1 + untilByte q y := by
        simp only [untilByte]; rw [if_neg (by omega)]
      rw [this] at h
      split at h <;> omega

theorem quotedLen_local_ge {q : Nat} {x : Str} (hq : q = 39 ∨ q = 34) {y y' : Str}
    (h0 : (x ++ 62 :: y).head? = some q)
    (h : quotedLen q (x ++ 62 :: y') ≤ x.length) :
    quotedLen q (x ++ 62 :: y') = quotedLen q (x ++ 62 :: y) :=
  (quotedLen_local hq (by rw [← head_local x y y']; exact h0) h).symm

/-- A token that ends in front of a `>`, or is that `>`, does so whatever follows. -/
theorem tagOut_local {u : Uni} {st : SS} {hs : Bool} {x : Str} (hx : Whole x) {y : Str} (y' : Str)
    (h : isBracket (tagOut u st hs (x ++ 62 :: y)).type = false →
      (tagOut u st hs (x ++ 62 :: y)).len ≤ x.length) :
    tagOut u st hs (x ++ 62 :: y') = tagOut u st hs (x ++ 62 :: y) := by
  have e1 : elementNameLen u (x ++ 62 :: y') = elementNameLen u (x ++ 62 :: y) :=
    firstRunLen_local (by simp [nameFirst, isWordCP, isWordAscii]) (by simp [nameRest, isWordCP, isWordAscii])
      hx _ _
  have e2 : unquotedLen (x ++ 62 :: y') = unquotedLen (x ++ 62 :: y) :=
    firstRunLen_local (by decide) (by decide) hx _ _
  have e3 := wsLen_local x y' y
  have e4 := head_local x y' y
  cases st with
  | AfterOpeningStartTag =>
    unfold tagOut
    simp only
    rw [e1, e3, untilByte_local x y' y]
  | AfterAttributeName =>
    unfold tagOut
    simp only
    rw [e3, e4, tagArm_local hx y y']
  | BeforeAttributeValue =>
    unfold tagOut at h ⊢
    simp only at h ⊢
    rw [e3, e4, tagArm_local hx y y', e2]
    split
    · rfl
    · rename_i h1
      rw [if_neg h1] at h
      split
      · rename_i h2
        rw [if_pos h2] at h
        have h3 := h rfl
        have h4 := unquotedFullLen_ge (x ++ 62 :: y)
        have h5 : unquotedLen (x ++ 62 :: y) ≤ x.length := Nat.le_trans h4 h3
        congr 1
        unfold unquotedFullLen
        dsimp only
        rw [e2, List.drop_append_of_le_length h5, List.drop_append_of_le_length h5,
          head_local _ y' y]
      · rename_i h2
        rw [if_neg h2] at h
        split
        · rename_i h3
          rw [if_pos h3] at h
          congr 1
          exact quotedLen_local (.inl rfl) h3 (h rfl)
        · rename_i h3
          rw [if_neg h3] at h
          split
          · rename_i h4
            rw [if_pos h4] at h
            congr 1
            exact quotedLen_local (.inr rfl) h4 (h rfl)
          · rfl
  | _ => exact tagArm_local hx y y'

/-! ### Valid UTF-8 is whole in front of an ASCII byte -/

theorem whole_iff {x : Str} : Whole x ↔ ∀ i b, x[i]? = some b → isCont b = true ∨ i + charLen b ≤ x.length := by
  induction x with
  | nil => simp [Whole]
  | cons a t ih =>
    constructor
    · rintro ⟨h1, h2⟩ i b hi
      match i, hi with
      | 0, hi =>
        simp only [List.getElem?_cons_zero, Option.some.injEq] at hi
        subst hi
        rcases h1 with h1 | h1
        · exact .inl h1
        · right; simp only [List.length_cons]; omega
      | i + 1, hi =>
        rcases ih.1 h2 i b (by simpa using hi) with h | h
        · exact .inl h
        · right; simp only [List.length_cons]; omega
    · intro h
      refine ⟨?_, ih.2 (fun i b hi => ?_)⟩
      · rcases h 0 a rfl with h | h
        · exact .inl h
        · right; simp only [List.length_cons] at h; omega
      · rcases h (i + 1) b (by simpa using hi) with h | h
        · exact .inl h
        · right; simp only [List.length_cons] at h; omega

theorem encodeCP_len {cp b : Nat} {t : Str} (hc : cp < 0x110000) (h : encodeCP cp = b :: t) :
    charLen b = 1 + t.length := by
  unfold encodeCP at h
  unfold charLen
  split at h
  · cases h; rw [if_pos (by assumption)]; rfl
  · split at h
    · cases h; rw [if_neg (by omega), if_pos (by omega)]; rfl
    · split at h
      · cases h; rw [if_neg (by omega), if_neg (by omega), if_pos (by omega)]; rfl
      · cases h; rw [if_neg (by omega), if_neg (by omega), if_neg (by omega)]; rfl

theorem whole_of_utf8 {cps : List Nat} {src : Str} (h : Utf8 cps src) {a e b : Nat}
    (he : src[e]? = some b) (hb : isCont b = false) : Whole (bytesIn src a e) := by
  obtain ⟨hc, hs⟩ := h
  have hle : e < src.length := (List.getElem?_eq_some_iff.1 he).1
  rw [whole_iff]
  intro i x hx
  rw [bytesIn_getElem?] at hx
  split at hx
  · rename_i hlt
    rw [bytesIn_length (by omega)]
    cases hi : isCont x with
    | true => exact .inl rfl
    | false =>
      right
      have hbd : isBoundary src (a + i) = true := by
        unfold isBoundary
        rw [if_neg (by omega), hx]
        simp [hi]
      rw [hs] at hbd
      obtain ⟨k, hk⟩ := utf8_boundary hc hbd
      rw [← hs] at hk
      cases hd : cps.drop k with
      | nil =>
        rw [hd] at hk
        have : (src.drop (a + i)).length = 0 := by rw [hk]; rfl
        simp at this; omega
      | cons cp l =>
        have hcp : cp < 0x110000 := hc cp (List.mem_of_mem_drop (by rw [hd]; simp))
        obtain ⟨y, t, h1, h2, h3, h4⟩ := encodeCP_cons cp
        rw [hd, List.flatMap_cons, h1] at hk
        have hy : src[a + i]? = some y := by
          have : (src.drop (a + i))[0]? = some y := by rw [hk]; rfl
          simpa using this
        rw [hx] at hy
        cases hy
        have hl := encodeCP_len hcp h1
        rcases Nat.lt_or_ge e (a + i + charLen x) with hh | hh
        · exfalso
          have h5 : (src.drop (a + i))[e - (a + i)]? = some b := by
            rw [List.getElem?_drop, ← he]; congr 1; omega
          rw [hk] at h5
          obtain ⟨j, hj⟩ : ∃ j, e - (a + i) = j + 1 := ⟨e - (a + i) - 1, by omega⟩
          rw [hj] at h5
          simp only [List.cons_append, List.getElem?_cons_succ] at h5
          rw [List.getElem?_append_left (by omega)] at h5
          have := h2 b (List.mem_of_getElem? h5)
          simp only [isCont, Bool.and_eq_false_iff, decide_eq_false_iff_not] at hb
          omega
        · omega
  · cases hx

/-! ### Scanning a part of the text -/

/-- Type and place of a token, moved by `a`. -/
def Tok.key (a : Nat) (t : Tok) : TT × Nat × Nat := (t.type, t.offset + a, t.stop + a)

/-- The same scanner state in the whole text and in the part that starts at `a`. -/
structure Synced (c : Cfg) (a : Nat) (s s' : Sc) : Prop where
  pos : s'.pos + a = s.pos
  state : s'.state = s.state
  hs : s'.hasSpace = s.hasSpace ∨ Nameless c s

theorem tagOut_hs {u : Uni} {st : SS} {r : Str} (hs hs' : Bool)
    (h : st = .AfterOpeningStartTag ∨ (st = .WithinTag ∧ r.head? = some 62)) :
    (tagOut u st hs' r).type = (tagOut u st hs r).type ∧ (tagOut u st hs' r).len = (tagOut u st hs r).len ∧
    (tagOut u st hs' r).state = (tagOut u st hs r).state ∧
    ((tagOut u st hs r).type = .StartTag → (tagOut u st hs' r).hasSpace = (tagOut u st hs r).hasSpace) := by
  rcases h with rfl | ⟨rfl, h⟩
  · unfold tagOut
    simp only
    split
    · exact ⟨rfl, rfl, rfl, fun _ => rfl⟩
    · split
      · exact ⟨rfl, rfl, rfl, by simp⟩
      · split
        · exact ⟨rfl, rfl, rfl, by simp⟩
        · exact ⟨rfl, rfl, rfl, by simp⟩
  · obtain ⟨t, rfl⟩ := head_cons h
    have e : ∀ hs, tagOut u .WithinTag hs (62 :: t) = ⟨.StartTagClose, 1, .WithinContent, hs⟩ := by
      intro hs
      unfold tagOut tagArm
      have e1 : wsLen (62 :: t) = 0 := rfl
      have e2 : attrNameLen (62 :: t) = 0 := rfl
      have e3 : (b!"/>").isPrefixOf (62 :: t) = false := rfl
      simp [e1, e2, e3]
    rw [e, e]
    exact ⟨rfl, rfl, rfl, by simp⟩

theorem Step.advances {c : Cfg} {s s' : Sc} (h : Step c s s') (he : c.emitPseudo = false)
    (hne : s'.tokenType ≠ .EOS) : s.pos < s'.pos := by
  obtain ⟨_, ⟨_, h1⟩ | ⟨_, h1 | h1⟩⟩ := h.facts
  · rw [h1] at hne; exact absurd rfl hne
  · unfold Advanced at h1; omega
  · unfold Pseudo at h1; rw [he] at h1; simp at h1

/-- The place of the `>` at `e` in the whole text and in the part. -/
structure Part (c c' : Cfg) (a e : Nat) : Prop where
  uni : c'.uni = c.uni
  pseudo : c'.emitPseudo = false
  src : ∃ b, c'.src = bytesIn c.src a b ∧ e < b
  lt : a ≤ e
  gt : c.src[e]? = some 62
  whole : ∀ p, Whole (bytesIn c.src p e)

theorem Part.rest {c c' : Cfg} {a e : Nat} (h : Part c c' a e) {s s' : Sc} (hp : s'.pos + a = s.pos)
    (he : s.pos ≤ e) : ∃ y y', rest c s = bytesIn c.src s.pos e ++ 62 :: y ∧
      Html.rest c' s' = bytesIn c.src s.pos e ++ 62 :: y' := by
  obtain ⟨b, hb, hlt⟩ := h.src
  have hl : e < c.src.length := (List.getElem?_eq_some_iff.1 h.gt).1
  have e1 : ∀ d, e < d → bytesIn c.src s.pos d = bytesIn c.src s.pos e ++ bytesIn c.src e d :=
    fun d hd => (bytesIn_append he (by omega)).symm
  have e2 : ∀ d, e < d → ∃ y, bytesIn c.src e d = 62 :: y := by
    intro d hd
    have : (bytesIn c.src e d)[0]? = some 62 := by rw [bytesIn_getElem?, if_pos (by omega)]; exact h.gt
    have : (bytesIn c.src e d).head? = some 62 := by rw [List.head?_eq_getElem?]; exact this
    exact head_cons this
  obtain ⟨y, hy⟩ := e2 c.src.length hl
  obtain ⟨y', hy'⟩ := e2 b hlt
  refine ⟨y, y', ?_, ?_⟩
  · rw [← hy, ← e1 _ hl, bytesIn_to_end]; rfl
  · rw [← hy', ← e1 _ hlt]
    unfold Html.rest
    rw [hb]
    unfold bytesIn
    rw [List.drop_drop]
    congr 1; omega

/-- One step in the whole text and in the part. -/
theorem Part.step {c c' : Cfg} {a e : Nat} (h : Part c c' a e) {s s' t t' : Sc}
    (hy : Synced c a s s') (hin : s.state.inStart = true)
    (h1 : scan c s = .ok t) (hne : t.tokenType ≠ .EOS)
    (hl : if isBracket t.tokenType then s.pos < t.pos ∧ t.pos = e + 1 else t.pos ≤ e)
    (h2 : scan c' s' = .ok t') :
    t'.tokenType = t.tokenType ∧ t'.pos + a = t.pos ∧ (isBracket t.tokenType = false → Synced c a t t') := by
  have hst := scan_step h1
  have hst' := scan_step h2
  have hlen : e < c.src.length := (List.getElem?_eq_some_iff.1 h.gt).1
  have hle : s.pos ≤ e := by
    have hsl : s.pos ≤ c.src.length := by
      rcases Nat.lt_or_ge c.src.length s.pos with h | h
      · exact absurd (hst.eos_iff.2 (by omega)) hne
      · exact h
    have := (hst.pos_le hsl).1
    split at hl <;> omega
  obtain ⟨b, hb, hlt⟩ := h.src
  have hne' : t'.tokenType ≠ .EOS := by
    intro h0
    have := hst'.eos_iff.1 h0
    rw [hb] at this
    have hl2 : (bytesIn c.src a b).length = min b c.src.length - a := by simp [bytesIn]
    have := hy.pos
    have := h.lt
    omega
  obtain ⟨y, y', r1, r2⟩ := h.rest hy.pos hle
  have d1 := hst.does hne hin (fun hb => by rw [hb] at hl; exact hl.1)
  have d2 := hst'.does hne' (by rw [hy.state]; exact hin) (fun _ => hst'.advances h.pseudo hne')
  rw [h.uni, hy.state, r2] at d2
  rw [r1] at d1
  have hx := h.whole s.pos
  have hloc : tagOut c.uni s.state s.hasSpace (bytesIn c.src s.pos e ++ 62 :: y') =
      tagOut c.uni s.state s.hasSpace (bytesIn c.src s.pos e ++ 62 :: y) := by
    refine tagOut_local hx y' (fun hbr => ?_)
    rw [← d1.type] at hbr
    rw [hbr] at hl
    have := d1.pos
    rw [bytesIn_length (by omega)]
    simp only [Bool.false_eq_true, if_false] at hl
    omega
  -- the outputs agree
  have key : (tagOut c.uni s.state s'.hasSpace (bytesIn c.src s.pos e ++ 62 :: y')).type = t.tokenType ∧
      (tagOut c.uni s.state s'.hasSpace (bytesIn c.src s.pos e ++ 62 :: y')).len + s.pos = t.pos ∧
      (isBracket t.tokenType = false →
        (tagOut c.uni s.state s'.hasSpace (bytesIn c.src s.pos e ++ 62 :: y')).state = t.state ∧
        ((tagOut c.uni s.state s'.hasSpace (bytesIn c.src s.pos e ++ 62 :: y')).hasSpace = t.hasSpace ∨
          Nameless c t)) := by
    rcases hy.hs with hh | hh
    · rw [hh, hloc]
      refine ⟨d1.type.symm, by have := d1.pos; omega, fun hbr => ?_⟩
      have := d1.state (by rw [← d1.type]; exact hbr)
      exact ⟨this.1.symm, .inl this.2.symm⟩
    · have hh2 : s.state = .AfterOpeningStartTag ∨ (s.state = .WithinTag ∧
          (bytesIn c.src s.pos e ++ 62 :: y').head? = some 62) := by
        rcases hh with hh | ⟨hh, h3 | h3⟩
        · exact .inl hh
        · right; refine ⟨hh, ?_⟩
          rw [r1, head_local _ y y'] at h3; exact h3
        · exact absurd h3 (rest_ne_nil (by omega))
      obtain ⟨k1, k2, k3, k4⟩ := tagOut_hs (u := c.uni) s.hasSpace s'.hasSpace hh2
      rw [hloc] at k1 k2 k3 k4
      refine ⟨by rw [k1, d1.type], by rw [k2]; have := d1.pos; omega, fun hbr => ?_⟩
      have hd := d1.state (by rw [← d1.type]; exact hbr)
      refine ⟨by rw [k3, hd.1], ?_⟩
      by_cases ht : t.tokenType = .StartTag
      · left; rw [k4 (by rw [← d1.type]; exact ht), hd.2]
      · right
        have hts : t.state.inStart = true := by
          rw [hd.1, ← k3]
          rcases hh2 with hh2 | ⟨hh2, hh3⟩
          · have hbr2 : isBracket (tagOut c.uni s.state s.hasSpace (bytesIn c.src s.pos e ++ 62 :: y)).type = false := by
              rw [← d1.type]; exact hbr
            rw [k3]
            rw [hh2] at hbr2 ⊢
            unfold tagOut at hbr2 ⊢
            simp only at hbr2 ⊢
            split
            · rfl
            · rename_i g1
              rw [if_neg g1] at hbr2
              split
              · rfl
              · rename_i g2
                rw [if_neg g2] at hbr2
                split
                · rfl
                · rename_i g3
                  rw [if_neg g3] at hbr2; cases hbr2
          · exfalso
            have e0 : (tagOut c.uni s.state s.hasSpace (bytesIn c.src s.pos e ++ 62 :: y)).type = .StartTagClose := by
              rw [head_local _ y' y] at hh3
              obtain ⟨z, hz⟩ := head_cons hh3
              rw [hz, hh2]
              unfold tagOut tagArm
              have e1 : wsLen (62 :: z) = 0 := rfl
              have e2 : attrNameLen (62 :: z) = 0 := rfl
              have e3 : (b!"/>").isPrefixOf (62 :: z) = false := rfl
              simp [e1, e2, e3]
            rw [d1.type, e0] at hbr; cases hbr
        exact ((hst.startFacts hne).nameless hts hh ht).1
  refine ⟨by rw [d2.type, key.1], by have := d2.pos; have := key.2.1; have := hy.pos; omega, fun hbr => ?_⟩
  have hk := key.2.2 hbr
  have hd2 := d2.state (by rw [key.1]; exact hbr)
  refine ⟨by have := d2.pos; have := key.2.1; have := hy.pos; omega, by rw [hd2.1, hk.1], ?_⟩
  rw [hd2.2]; exact hk.2

theorem StepTag.stays {a s' : Sc} (h : StepTag c a s') (ha : a.state = .WithinTag)
    (hb : isBracket s'.tokenType = false) : s'.state.inStart = true := by
  cases h with
  | unknown s1 hp1 h0 h1 h2 h3 => simp [fin, adv, hp1.state_eq, ha, SS.inStart]
  | _ => first | (cases hb; done) | simp [fin, adv, ha, SS.inStart]

theorem Step.stays {s s' : Sc} (h : Step c s s') (hne : s'.tokenType ≠ .EOS)
    (hs : s.state.inStart = true) (hbr : isBracket s'.tokenType = false) : s'.state.inStart = true := by
  have ns : ∀ {st}, s.state = st → st.inStart = false → False := fun h1 h2 => by
    rw [h1, h2] at hs; cases hs
  cases h with
  | eos h => exact absurd rfl hne
  | tag _ h hs hx => exact hx.stays hs hbr
  | afterNameTag _ h hs hw h0 hx => exact hx.stays rfl hbr
  | valueTag _ h hs hw hb h0 h1 hx => exact hx.stays rfl hbr
  | startTagName h hs hb h0 => rfl
  | startTagWs h hs hb hn h0 => exact hs.symm ▸ rfl
  | startTagNoName h hs hb hn hw h0 => rfl
  | startTagImmediate h hs hb hn hw h0 => cases hbr
  | afterNameWs h hs h0 => exact hs.symm ▸ rfl
  | assign h hs hw h0 => rfl
  | valueWs h hs h0 => rfl
  | valueUnquoted h hs hw hb h0 => rfl
  | valueQuoted h hs hw hb h0 q hq h1 => rfl
  | _ => exact (ns (by assumption) rfl).elim

theorem Run.pos_le {s s2 : Sc} {ts : List Tok} (h : Run c s ts s2) : s.pos ≤ s2.pos := by
  induction h with
  | nil s => exact Nat.le_refl _
  | @cons s s1 s2 ts h hne hr ih =>
    have hst := scan_step h
    have hsl : s.pos ≤ c.src.length := by
      rcases Nat.lt_or_ge c.src.length s.pos with h | h
      · exact absurd (hst.eos_iff.2 (by omega)) hne
      · exact h
    have := (hst.pos_le hsl).1
    omega

/-- The tokens of the start tag in the whole text and in the part. -/
theorem Part.run {c c' : Cfg} {a e : Nat} (h : Part c c' a e) {s s1 s2 : Sc} {ts : List Tok}
    (hr : Run c s ts s1) (hb : ∀ t ∈ ts, isBracket t.type = false) (hin : s.state.inStart = true)
    (hlast : scan c s1 = .ok s2) (hlt : s1.pos < s2.pos) (h2 : s2.pos = e + 1)
    (ht : isBracket s2.tokenType = true) :
    ∀ {s' z : Sc} {ts' : List Tok}, Synced c a s s' → Run c' s' ts' z → c'.src.length ≤ z.pos →
    ∃ ts1 cl ts2, ts' = ts1 ++ cl :: ts2 ∧ ts1.map (Tok.key a) = ts.map (Tok.key 0) ∧
      cl.type = s2.tokenType ∧ cl.offset + a = s1.pos ∧ cl.stop + a = e + 1 := by
  obtain ⟨b, hsb, hltb⟩ := h.src
  have hlen : e < c.src.length := (List.getElem?_eq_some_iff.1 h.gt).1
  have hl2 : c'.src.length = min b c.src.length - a := by rw [hsb]; simp [bytesIn]
  induction hr with
  | nil s =>
    intro s' z ts' hy hr' hz
    cases hr' with
    | nil => have := hy.pos; have := h.lt; omega
    | cons h1' hne' hr' =>
      rename_i t' tl
      have hne : s2.tokenType ≠ .EOS := by intro h0; rw [h0] at ht; cases ht
      obtain ⟨k1, k2, _⟩ := h.step hy hin hlast hne (by rw [if_pos ht]; exact ⟨hlt, h2⟩) h1'
      refine ⟨[], t'.tok, tl, rfl, rfl, k1, ?_, ?_⟩
      · show t'.tokenOffset + a = _
        rw [(scan_step h1').offset_eq, hy.pos]
      · show t'.pos + a = _
        rw [k2, h2]
  | @cons s t s1 ts h1 hne hr ih =>
    intro s' z ts' hy hr' hz
    have hbt : isBracket t.tokenType = false := hb t.tok (List.mem_cons_self ..)
    have hrp := hr.pos_le
    cases hr' with
    | nil =>
      have hst := scan_step h1
      have hsl : s.pos ≤ c.src.length := by
        rcases Nat.lt_or_ge c.src.length s.pos with h | h
        · exact absurd (hst.eos_iff.2 (by omega)) hne
        · exact h
      have := (hst.pos_le hsl).1
      have := hy.pos; have := h.lt; omega
    | cons h1' hne' hr' =>
      rename_i t' tl
      obtain ⟨k1, k2, k3⟩ := h.step hy hin h1 hne (by rw [hbt]; simp; omega) h1'
      obtain ⟨ts1, cl, ts2, i1, i2, i3⟩ := ih (fun t ht => hb t (List.mem_cons_of_mem _ ht))
        ((scan_step h1).stays hne hin hbt) hlast hlt (k3 hbt) hr' hz
      refine ⟨t'.tok :: ts1, cl, ts2, by rw [i1]; rfl, ?_, i3⟩
      rw [List.map_cons, List.map_cons, i2]
      congr 1
      unfold Tok.key
      show (t'.tokenType, t'.tokenOffset + a, t'.pos + a) = (t.tokenType, t.tokenOffset + 0, t.pos + 0)
      rw [k1, k2, (scan_step h1').offset_eq, (scan_step h1).offset_eq, hy.pos]
      rfl

theorem isPrefixOf_bytesIn {l src : Str} {a b : Nat} (h : l.isPrefixOf (bytesIn src a b) = true) :
    l.isPrefixOf (src.drop a) = true := by
  rw [List.isPrefixOf_iff_prefix] at h ⊢
  refine h.trans ?_
  unfold bytesIn
  rw [List.drop_take]
  exact List.take_prefix _ _

theorem isPrefixOf_bytesIn_lower {l src : Str} {a b : Nat}
    (h : l.isPrefixOf ((bytesIn src a b).map lowerByte) = true) :
    l.isPrefixOf ((src.drop a).map lowerByte) = true := by
  rw [List.isPrefixOf_iff_prefix] at h ⊢
  refine h.trans ?_
  unfold bytesIn
  rw [List.drop_take, List.map_take]
  exact List.take_prefix _ _

/-- The tokens of the text of an element, scanned on its own, begin with those of its start
tag in the document. -/
theorem StartRun.part {n : Node} {e : Nat} {s0 s1 s2 : Sc} {ts : List Tok} {cps : List Nat}
    (h : StartRun c n e s0 ts s1 s2) (hu : Utf8 cps c.src) {c' : Cfg} {b : Nat}
    (huni : c'.uni = c.uni) (hps : c'.emitPseudo = false) (hsrc : c'.src = bytesIn c.src n.start b)
    (heb : e ≤ b) (hgt : c.src[e - 1]? = some 62) {f : Nat} {ts' : List Tok}
    (ht : tokensF c' f (.new 0 .WithinContent) = .ok ts') :
    ∃ o ts1 cl ts2, ts' = o :: (ts1 ++ cl :: ts2) ∧ o.type = .StartTagOpen ∧ o.offset = 0 ∧ o.stop = 1 ∧
      ts1.map (Tok.key n.start) = ts.map (Tok.key 0) ∧
      cl.type = s2.tokenType ∧ cl.offset + n.start = s1.pos ∧ cl.stop + n.start = e := by
  obtain ⟨z, z3, hr, hz1, hz2⟩ := tokensF_run ht
  have hz := (scan_step hz1).eos_iff.1 hz2
  have hrp := h.inner.run.pos_le
  have hp0 := h.inner.pos
  have hlt := h.lt
  have hst := h.stop
  have hlen : e - 1 < c.src.length := (List.getElem?_eq_some_iff.1 hgt).1
  have hl2 : c'.src.length = min b c.src.length - n.start := by rw [hsrc]; simp [bytesIn]
  have hpart : Part c c' n.start (e - 1) :=
    ⟨huni, hps, ⟨b, hsrc, by omega⟩, by omega, hgt, fun p => whole_of_utf8 hu hgt (by decide)⟩
  cases hr with
  | nil =>
    have : (Sc.new 0 .WithinContent).pos = 0 := rfl
    omega
  | cons h1 hne hr =>
    rename_i t tl
    have hrest : rest c' (.new 0 .WithinContent) = bytesIn c.src n.start b := by
      unfold rest; rw [hsrc]; rfl
    have hstep := scan_step h1
    have hopen : StepContent c' (.new 0 .WithinContent) t := by
      cases hstep with
      | eos h => exact absurd rfl hne
      | content _ h hs hx => exact hx
      | _ => exfalso; first | (rename_i hs _ ; cases hs; done) | (rename_i hs _ _; cases hs; done) |
          (rename_i hs _ _ _; cases hs; done) | (rename_i hs _ _ _ _; cases hs; done) |
          (rename_i hs _ _ _ _ _; cases hs; done) | (rename_i hs _ _ _ _ _ _; cases hs; done) |
          (rename_i hs _; cases hs) | (rename_i hs; cases hs)
    have hhead : (rest c' (.new 0 .WithinContent)).head? = some 60 := by
      rw [hrest, List.head?_eq_getElem?, bytesIn_getElem?, if_pos (by omega)]
      exact h.inner.opens.opn
    have hno := h.inner.opens
    have ht0 : t = fin { adv (.new 0 .WithinContent) 1 with state := .AfterOpeningStartTag } 0 .StartTagOpen none := by
      cases hopen with
      | startComment h =>
        rw [hrest] at h
        have := isPrefixOf_bytesIn h
        rw [hno.notComment] at this; cases this
      | startDoctype h hb =>
        rw [hrest] at h
        have := isPrefixOf_bytesIn_lower h
        rw [hno.notDoctype] at this; cases this
      | endTagOpen h =>
        rw [hrest] at h
        have := isPrefixOf_bytesIn h
        rw [hno.notEnd] at this; cases this
      | startTagOpen h h2 h3 h4 => rfl
      | content h h0 => exact absurd hhead h
    have hy : Synced c n.start s0 t := by
      rw [ht0]
      refine ⟨?_, h.inner.state.symm, .inr (.inl h.inner.state)⟩
      show 0 + 1 + n.start = s0.pos
      omega
    obtain ⟨ts1, cl, ts2, i1, i2, i3, i4, i5⟩ := hpart.run h.inner.run h.inner.inner
      (by rw [h.inner.state]; rfl) h.last h.lt (by omega)
      (by rcases h.type with h | h <;> rw [h] <;> rfl) hy hr hz
    refine ⟨t.tok, ts1, cl, ts2, by rw [i1], by rw [ht0]; rfl, by rw [ht0]; rfl, by rw [ht0]; rfl,
      i2, i3, i4, by omega⟩

end Html
