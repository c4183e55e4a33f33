import Verif.Proof.StepFacts
import Verif.Spec.Tokens

/-! # The text of each kind of token -/

namespace Html
open Spec

theorem runLen_ascii {p : Nat → Bool} {s : Str} {b : Nat} (h : b ∈ s.take (runLen p s))
    (hb : b < 128) : p b = true := by
  induction s with
  | nil => simp [runLen] at h
  | cons a t ih =>
    simp only [runLen] at h
    split at h
    · rename_i ha
      rw [Nat.add_comm 1] at h
      simp only [List.take_succ_cons, List.mem_cons] at h
      rcases h with rfl | h
      · simp [isCont] at ha; omega
      · exact ih h
    · split at h
      · rename_i hp
        rw [Nat.add_comm 1] at h
        simp only [List.take_succ_cons, List.mem_cons] at h
        rcases h with rfl | h
        · simpa [codePoint, hb] using hp
        · exact ih h
      · simp at h

theorem firstRunLen_ascii {p q : Nat → Bool} {s : Str} {b : Nat}
    (h : b ∈ s.take (firstRunLen p q s)) (hb : b < 128) : p b = true ∨ q b = true := by
  cases s with
  | nil => simp at h
  | cons a t =>
    simp only [firstRunLen] at h
    split at h
    · rename_i hp
      rw [Nat.add_comm 1] at h
      simp only [List.take_succ_cons, List.mem_cons] at h
      rcases h with rfl | h
      · left; simpa [codePoint, hb] using hp
      · right; exact runLen_ascii h hb
    · simp at h

theorem firstRunLen_head {p q : Nat → Bool} {s : Str} (h : 0 < firstRunLen p q s) :
    ∃ b t, s = b :: t ∧ p (codePoint (b :: t)) = true := by
  cases s with
  | nil => simp [firstRunLen] at h
  | cons a t =>
    simp only [firstRunLen] at h
    split at h
    · exact ⟨a, t, rfl, by assumption⟩
    · simp at h

theorem take_ne_nil {s : Str} {n : Nat} (h0 : 0 < n) (h1 : n ≤ s.length) : s.take n ≠ [] := by
  intro h
  have : (s.take n).length = 0 := by rw [h]; rfl
  simp at this
  rcases this with h | h
  · omega
  · subst h; simp at h1; omega

theorem elementName_spec {u : Uni} {r : Str} (h : 0 < elementNameLen u r) :
    ElementName (r.take (elementNameLen u r)) := by
  have hle := elementNameLen_le u r
  refine ⟨take_ne_nil h hle, ?_, ?_⟩
  · intro b hb h128
    have key : (b = 95 ∨ b = 58 ∨ isWordAscii b = true ∨ b = 45 ∨ b = 46) := by
      rcases firstRunLen_ascii hb h128 with h | h
      · simp [nameFirst, isWordCP, h128] at h; grind
      · simp [nameRest, isWordCP, h128] at h; grind
    unfold isWordAscii at key
    simp only [Bool.or_eq_true, Bool.and_eq_true, decide_eq_true_eq, beq_iff_eq] at key
    unfold alnum; omega
  · obtain ⟨b, t, rfl, hp⟩ := firstRunLen_head h
    have : (b :: t).take (elementNameLen u (b :: t)) = b :: t.take (elementNameLen u (b :: t) - 1) := by
      rw [← List.take_succ_cons]; congr 1; omega
    rw [this]
    simp only [List.head?_cons, ne_eq, Option.some.injEq]
    constructor <;> (rintro rfl; simp [nameFirst, isWordCP, isWordAscii, codePoint] at hp)

theorem attributeName_spec {r : Str} (h : 0 < attrNameLen r) :
    AttributeName (r.take (attrNameLen r)) := by
  refine ⟨take_ne_nil h (attrNameLen_le r), ?_⟩
  intro b hb h128
  have hx : attrNameChar b = true := by
    rcases firstRunLen_ascii hb h128 with h | h <;> exact h
  unfold attrNameChar isSpaceCP at hx
  simp only [Bool.not_eq_true', Bool.or_eq_false_iff, Bool.and_eq_false_iff, decide_eq_false_iff_not,
    beq_eq_false_iff_ne, ne_eq] at hx
  omega

theorem unquoted_spec {r : Str} (h : 0 < unquotedLen r) :
    UnquotedValue (r.take (unquotedFullLen r)) := by
  have hle := unquotedLen_le r
  refine ⟨r.take (unquotedLen r), take_ne_nil h hle, ?_, ?_⟩
  · intro b hb h128
    have hx : unquotedChar b = true := by
      rcases firstRunLen_ascii hb h128 with h | h <;> exact h
    unfold unquotedChar isSpaceCP at hx
    simp only [Bool.not_eq_true', Bool.or_eq_false_iff, Bool.and_eq_false_iff, decide_eq_false_iff_not,
      beq_eq_false_iff_ne, ne_eq] at hx
    omega
  · unfold unquotedFullLen
    simp only
    split
    · rename_i hq
      rcases hq with hq | hq
      · right; right
        rw [List.head?_drop] at hq
        rw [List.take_add_one, hq]; rfl
      · right; left
        rw [List.head?_drop] at hq
        rw [List.take_add_one, hq]; rfl
    · left; rfl

theorem quoted_spec {q : Nat} {r : Str} {atEnd : Prop} (hq : q = 39 ∨ q = 34) (h : r.head? = some q)
    (hend : quotedLen q r = r.length → atEnd) : QuotedValue atEnd (r.take (quotedLen q r)) := by
  obtain ⟨t, rfl⟩ := head_cons h
  have hle := untilByte_le q t
  refine ⟨q, t.take (untilByte q t), hq, untilByte_ne, ?_⟩
  unfold quotedLen at *
  simp only [List.drop_one, List.tail_cons, List.length_cons] at *
  split
  · rename_i hlt
    left
    have hget := untilByte_get (c := q) (s := t) (by omega)
    have : 2 + untilByte q t = (untilByte q t + 1) + 1 := by omega
    rw [this, List.take_succ_cons, List.take_add_one, hget]; rfl
  · rename_i hlt
    right
    have : 1 + untilByte q t = untilByte q t + 1 := by omega
    rw [this, List.take_succ_cons]
    refine ⟨rfl, hend ?_⟩
    rw [if_neg (by omega)]; omega

theorem occurs_prefix {pat s : Str} (h : Occurs pat s) (hp : pat ≠ []) :
    ∃ i, i < s.length ∧ pat.isPrefixOf (s.drop i) = true := by
  obtain ⟨a, b, rfl⟩ := h
  refine ⟨a.length, ?_, ?_⟩
  · have := List.length_pos_iff.2 hp
    simp; omega
  · rw [List.append_assoc, List.drop_left, List.isPrefixOf_iff_prefix]
    exact List.prefix_append _ _

theorem not_occurs_untilLit {pat s : Str} (hp : pat ≠ []) : ¬ Occurs pat (s.take (untilLit pat s)) := by
  intro h
  obtain ⟨i, hi, hpre⟩ := occurs_prefix h hp
  have hle := untilLit_le pat s
  simp only [List.length_take] at hi
  have := untilLit_none (l := pat) (s := s) (i := i) (by omega)
  rw [List.isPrefixOf_iff_prefix] at hpre
  rw [← Bool.not_eq_true, List.isPrefixOf_iff_prefix] at this
  apply this
  rw [List.drop_take] at hpre
  exact hpre.trans (List.take_prefix _ _)

theorem isWs_space {b : Nat} (h : isWs b = true) : Space b := by
  simp [isWs] at h; unfold Space; omega

/-- Text of the token produced by a scan, given where it starts and how long it is. -/
theorem text_tok {c : Cfg} {s s' : Sc} {n : Nat} (h1 : s'.tokenOffset = s.pos)
    (h2 : s'.pos = s.pos + n) : text c.src s'.tok = (rest c s).take n := by
  unfold text Sc.tok rest
  rw [h1, h2]
  exact bytesIn_eq_take c.src s.pos n

theorem take_prefix_eq {l r : Str} (h : l.isPrefixOf r = true) : r.take l.length = l := by
  rw [List.isPrefixOf_iff_prefix] at h
  exact (List.prefix_iff_eq_take.1 h).symm

theorem take_head {r : Str} {b : Nat} (h : r.head? = some b) : r.take 1 = [b] := by
  obtain ⟨t, rfl⟩ := head_cons h; rfl

theorem rest_get {c : Cfg} {s : Sc} {b : Nat} (h : (rest c s).head? = some b) :
    c.src[s.pos]? = some b := by
  simpa [rest] using h

theorem lowerByte_eq (b : Nat) : lowerByte b = if 65 ≤ b ∧ b ≤ 90 then b + 32 else b := rfl

theorem StepContent.textOK {c : Cfg} {s s' : Sc} (h : StepContent c s s') : TextOK c.src s'.tok := by
  cases h with
  | startComment h =>
    have := text_tok (c := c) (s := s) (n := 4) (s' := fin { adv s 4 with state := .WithinComment } s.pos .StartCommentTag none) rfl rfl
    unfold TextOK; rw [this]; exact take_prefix_eq h
  | startDoctype h =>
    have := text_tok (c := c) (s := s) (n := 9) (s' := fin { adv s 9 with state := .WithinDoctype } s.pos .StartDoctypeTag none) rfl rfl
    unfold TextOK; rw [this]
    show asciiLower ((rest c s).take 9) = _
    have h2 := take_prefix_eq h
    unfold asciiLower
    rw [← List.map_take] at h2
    exact h2
  | endTagOpen h =>
    have := text_tok (c := c) (s := s) (n := 2) (s' := fin { adv s 2 with state := .AfterOpeningEndTag } s.pos .EndTagOpen none) rfl rfl
    unfold TextOK; rw [this]; exact take_prefix_eq h
  | startTagOpen h =>
    have := text_tok (c := c) (s := s) (n := 1) (s' := fin { adv s 1 with state := .AfterOpeningStartTag } s.pos .StartTagOpen none) rfl rfl
    unfold TextOK; rw [this]; exact take_head h
  | content h h0 =>
    have := text_tok (c := c) (s := s) (n := untilByte 60 (rest c s)) (s' := fin (adv s (untilByte 60 (rest c s))) s.pos .Content none) rfl rfl
    unfold TextOK; rw [this]
    exact ⟨take_ne_nil h0 (untilByte_le _ _), untilByte_ne⟩

theorem ws_text {r : Str} (h : 0 < wsLen r) :
    r.take (wsLen r) ≠ [] ∧ ∀ b ∈ r.take (wsLen r), Space b :=
  ⟨take_ne_nil h (wsLen_le r), fun _ hb => isWs_space (wsLen_all hb)⟩

/-- Closing of the goals of `textOK`. -/
macro "txt" : tactic => `(tactic| (refine (text_tok ?_ ?_) <;> rfl))

theorem StepTag.textOK {c : Cfg} {s s' : Sc} (h : StepTag c s s') (hp : s.pos < c.src.length) :
    TextOK c.src s'.tok := by
  have hlen := rest_length c s
  cases h with
  | ws h =>
    unfold TextOK
    rw [text_tok (c := c) (s := s) (n := wsLen (rest c s)) rfl rfl]
    exact ws_text h
  | attrName _ _ _ h =>
    unfold TextOK
    rw [text_tok (c := c) (s := s) (n := attrNameLen (rest c s)) rfl rfl]
    exact attributeName_spec h
  | selfClose s1 hp1 h =>
    unfold TextOK
    rw [text_tok (c := c) (s := s) (n := 2) rfl (by simp [fin, adv, hp1.pos_eq])]
    exact take_prefix_eq h
  | close s1 hp1 h =>
    unfold TextOK
    rw [text_tok (c := c) (s := s) (n := 1) rfl (by simp [fin, adv, hp1.pos_eq])]
    exact .inl (take_head h)
  | pseudo s1 hp1 he h =>
    unfold TextOK
    rw [text_tok (c := c) (s := s) (n := 0) rfl (by simp [fin, hp1.pos_eq])]
    exact .inr ⟨rfl, rest_get h⟩
  | unknown s1 hp1 =>
    unfold TextOK
    rw [text_tok (c := c) (s := s) (n := 1) rfl (by simp [fin, adv, hp1.pos_eq])]
    exact take_ne_nil (by omega) (by omega)

theorem Step.textOK {c : Cfg} {s s' : Sc} (h : Step c s s') (hne : s'.tokenType ≠ .EOS) :
    TextOK c.src s'.tok := by
  have hlen := rest_length c s
  cases h with
  | eos h => exact absurd rfl hne
  | content _ h hs hx => exact hx.textOK
  | commentEnd h hs hx =>
    unfold TextOK
    rw [text_tok (c := c) (s := s) (n := 3) rfl rfl]
    exact take_prefix_eq hx
  | comment h hs hx h0 =>
    unfold TextOK
    rw [text_tok (c := c) (s := s) (n := untilLit b!"-->" (rest c s)) rfl rfl]
    exact ⟨take_ne_nil h0 (untilLit_le _ _), not_occurs_untilLit (by simp)⟩
  | doctypeEnd h hs hx =>
    unfold TextOK
    rw [text_tok (c := c) (s := s) (n := 1) rfl rfl]
    exact take_head hx
  | doctype h hs hx h0 =>
    unfold TextOK
    rw [text_tok (c := c) (s := s) (n := untilByte 62 (rest c s)) rfl rfl]
    exact ⟨take_ne_nil h0 (untilByte_le _ _), untilByte_ne⟩
  | endTagName h hs hb h0 =>
    unfold TextOK
    rw [text_tok (c := c) (s := s) (n := elementNameLen c.uni (rest c s)) rfl rfl]
    exact elementName_spec h0
  | endTagWs h hs hb hn h0 =>
    unfold TextOK
    rw [text_tok (c := c) (s := s) (n := wsLen (rest c s)) rfl rfl]
    exact ws_text h0
  | endTagNoName h hs hb hn hw h0 =>
    unfold TextOK
    rw [text_tok (c := c) (s := s) (n := untilByte 62 (rest c s)) rfl rfl]
    exact take_ne_nil h0 (untilByte_le _ _)
  | endTagImmediate h hs hb hn hw h0 =>
    unfold TextOK
    rw [text_tok (c := c) (s := s) (n := 1) rfl rfl]
    exact .inl (take_head h0)
  | endTag _ h hs hx =>
    cases hx with
    | ws h0 =>
      unfold TextOK
      rw [text_tok (c := c) (s := s) (n := wsLen (rest c s)) rfl rfl]
      exact ws_text h0
    | close h0 =>
      unfold TextOK
      rw [text_tok (c := c) (s := s) (n := 1) rfl rfl]
      exact .inl (take_head h0)
    | pseudo he h0 =>
      unfold TextOK
      rw [text_tok (c := c) (s := s) (n := 0) rfl (by simp [fin])]
      exact .inr ⟨rfl, rest_get h0⟩
    | unknown =>
      unfold TextOK
      rw [text_tok (c := c) (s := s) (n := 1) rfl rfl]
      exact take_ne_nil (by omega) (by omega)
  | startTagName h hs hb h0 =>
    unfold TextOK
    rw [text_tok (c := c) (s := s) (n := elementNameLen c.uni (rest c s)) rfl rfl]
    exact elementName_spec h0
  | startTagWs h hs hb hn h0 =>
    unfold TextOK
    rw [text_tok (c := c) (s := s) (n := wsLen (rest c s)) rfl rfl]
    exact ws_text h0
  | startTagNoName h hs hb hn hw h0 =>
    unfold TextOK
    rw [text_tok (c := c) (s := s) (n := untilByte 62 (rest c s)) rfl rfl]
    exact take_ne_nil h0 (untilByte_le _ _)
  | startTagImmediate h hs hb hn hw h0 =>
    unfold TextOK
    rw [text_tok (c := c) (s := s) (n := 1) rfl rfl]
    exact .inl (take_head h0)
  | tag _ h hs hx => exact hx.textOK h
  | afterNameWs h hs h0 =>
    unfold TextOK
    rw [text_tok (c := c) (s := s) (n := wsLen (rest c s)) rfl rfl]
    exact ws_text h0
  | assign h hs hw h0 =>
    unfold TextOK
    rw [text_tok (c := c) (s := s) (n := 1) rfl rfl]
    exact take_head h0
  | afterNameTag _ h hs hw h0 hx => exact hx.textOK h
  | valueWs h hs h0 =>
    unfold TextOK
    rw [text_tok (c := c) (s := s) (n := wsLen (rest c s)) rfl rfl]
    exact ws_text h0
  | valueUnquoted h hs hw hb h0 =>
    unfold TextOK
    rw [text_tok (c := c) (s := s) (n := unquotedFullLen (rest c s)) rfl rfl]
    exact .inr (unquoted_spec h0)
  | valueQuoted h hs hw hb h0 q hq h1 =>
    unfold TextOK
    rw [text_tok (c := c) (s := s) (n := quotedLen q (rest c s)) rfl rfl]
    refine .inl (quoted_spec hq h1 ?_)
    intro he
    show s.pos + quotedLen q (rest c s) = c.src.length
    omega
  | valueTag _ h hs hw hb h0 h1 hx => exact hx.textOK h
  | script p st h hs hp hl hst =>
    unfold TextOK
    rw [text_tok (c := c) (s := s) (n := p - s.pos) rfl (by show p = _; omega)]
    exact take_ne_nil (by omega) (by omega)
  | scriptContent _ h hs hl hx => exact hx.textOK
  | style h hs hb h0 =>
    unfold TextOK
    rw [text_tok (c := c) (s := s) (n := untilLit b!"</style" (rest c s)) rfl rfl]
    exact ⟨take_ne_nil h0 (untilLit_le _ _), not_occurs_untilLit (by simp)⟩
  | styleContent _ h hs hb h0 hx => exact hx.textOK

end Html
