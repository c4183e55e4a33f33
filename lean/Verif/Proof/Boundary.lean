import Verif.Proof.AttrSel

/-! # Tokens and nodes end between characters -/

namespace Html
open Spec

theorem asciiNext_of_ascii {src : Str} (h : isAscii src) : AsciiNext src := (clean_of_ascii h).next

variable {c : Cfg}

theorem isBoundary_ascii {src : Str} {i b : Nat} (h : src[i]? = some b) (hb : b < 128) :
    isBoundary src i = true := isBoundary_of_get h (by simp [isCont]; omega)

theorem AsciiNext.run {p q : Nat → Bool} {s : Sc} (h0 : 0 < firstRunLen p q (rest c s)) :
    isBoundary c.src (s.pos + firstRunLen p q (rest c s)) = true := by
  have hp : s.pos ≤ c.src.length := by
    rcases Nat.lt_or_ge c.src.length s.pos with h | h
    · have : rest c s = [] := by unfold rest; exact List.drop_eq_nil_of_le (by omega)
      rw [this] at h0
      simp [firstRunLen] at h0
    · exact h
  have hr : isBoundary (rest c s) _ = true := firstRunLen_boundary h0
  unfold rest at hr
  rwa [isBoundary_drop hp] at hr

theorem StepTag.attrBd {s s' : Sc} (h : StepTag c s s')
    (ht : s'.tokenType = .AttributeName ∨ s'.tokenType = .AttributeValue) :
    isBoundary c.src s.pos = true ∧ isBoundary c.src s'.pos = true := by
  cases h with
  | attrName h1 hw hb h => exact ⟨hb, AsciiNext.run h⟩
  | _ => simp [fin] at ht

theorem Step.attrBd {s s' : Sc} (hn : AsciiNext c.src) (h : Step c s s')
    (ht : s'.tokenType = .AttributeName ∨ s'.tokenType = .AttributeValue) :
    isBoundary c.src s.pos = true ∧ isBoundary c.src s'.pos = true := by
  cases h with
  | content _ h hs hx => cases hx <;> simp [fin] at ht
  | endTag _ h hs hx => cases hx <;> simp [fin] at ht
  | tag _ h hs hx => exact hx.attrBd ht
  | afterNameTag _ h hs hw h0 hx => exact hx.attrBd ht
  | valueTag _ h hs hw hb h0 h1 hx => exact hx.attrBd ht
  | scriptContent _ h hs hl hx => cases hx <;> simp [fin] at ht
  | styleContent _ h hs hb h0 hx => cases hx <;> simp [fin] at ht
  | valueUnquoted h hs hw hb h0 => exact ⟨hb, hn.unquoted h0⟩
  | valueQuoted h hs hw hb h0 q hq h1 => exact ⟨hb, hn.quoted hq h1⟩
  | _ => simp [fin] at ht

/-! ### Nodes -/

theorem at_get0 {src : Str} {i b : Nat} {x : Str} (h : At src i (b :: x)) : src[i]? = some b := by
  obtain ⟨r, h⟩ := h
  have : (src.drop i)[0]? = some b := by rw [h]; rfl
  simpa using this

theorem at_get1 {src : Str} {i a b : Nat} {x : Str} (h : At src i (a :: b :: x)) :
    src[i + 1]? = some b := by
  obtain ⟨r, h⟩ := h
  have : (src.drop i)[1]? = some b := by rw [h]; rfl
  simpa using this

variable {void : List Str}

theorem Done.ste_bd {n : Node} (hn : AsciiNext c.src) (h : Done c void n) {e : Nat}
    (he : n.startTagEnd = some e) : isBoundary c.src e = true ∧ isBoundary c.src (e - 1) = true := by
  obtain ⟨h1, h2, _⟩ := h.ste e he
  have h3 := at_get0 h2
  have := hn _ _ h3 (by omega)
  rw [Nat.sub_add_cancel (by omega)] at this
  exact ⟨this, isBoundary_ascii h3 (by omega)⟩

theorem Done.ets_bd {n : Node} (hn : AsciiNext c.src) (h : Done c void n) {e : Nat}
    (he : n.endTagStart = some e) : isBoundary c.src e = true ∧ isBoundary c.src (e + 2) = true := by
  obtain ⟨_, h2, _⟩ := h.ets e he
  exact ⟨isBoundary_ascii (at_get0 h2) (by omega), hn _ _ (at_get1 h2) (by omega)⟩

theorem Done.stop_bd {n : Node} (hn : AsciiNext c.src) (h : Done c void n)
    (hl : LeftOpen n → isBoundary c.src n.stop = true) : isBoundary c.src n.stop = true := by
  cases hs : n.startTagEnd with
  | none =>
    rcases (h.noste hs).2.2.2 with h1 | h1
    · exact isBoundary_ascii h1 (by omega)
    · rw [h1]; exact isBoundary_length _
  | some e =>
    cases he : n.endTagStart with
    | some e2 =>
      obtain ⟨_, _, _, nm, _, h1 | h1⟩ := h.ets e2 he
      · have := hn _ _ (at_get0 h1.1) (by omega)
        have h3 := h.lt
        rwa [Nat.sub_add_cancel (by omega)] at this
      · exact isBoundary_ascii h1.1 (by omega)
    | none =>
      cases hc : n.closed with
      | true =>
        have := (h.cls hc he).1
        exact (h.ste_bd hn this).1
      | false => exact hl ⟨hc, by simp [hs]⟩

/-- The ends of all nodes are character boundaries. -/
theorem parse_stop_bd {u : Uni} {cs : Bool} {src : Str} {roots : List Node} {n : Node}
    (hn : AsciiNext src) (h : parse u cs void src = .ok roots) (hm : InForest roots n) :
    isBoundary src n.stop = true := by
  induction hm with
  | root hr =>
    refine Done.stop_bd (c := parserCfg u cs src) hn (parse_done h (.root hr)) (fun hl => ?_)
    have := ((parse_kids h).left _ hr hl).2.1
    rw [this]; exact isBoundary_length _
  | @child m n hm hc ih =>
    have hd := parse_done h hm
    refine Done.stop_bd (c := parserCfg u cs src) hn (parse_done h (.child hm hc)) (fun hl => ?_)
    have := (hd.left _ hc hl).2
    rw [this]
    unfold contentEnd
    cases he : m.endTagStart with
    | none => exact ih
    | some e => exact (hd.ets_bd hn he).1

theorem Done.start_bd {n : Node} (hn : AsciiNext c.src) (h : Done c void n) :
    isBoundary c.src n.start = true ∧ isBoundary c.src (n.start + 1) = true :=
  ⟨isBoundary_ascii h.opn (by omega), hn _ _ h.opn (by omega)⟩

end Html
