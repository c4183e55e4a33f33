import Verif.Proof.ValueProposals
import Verif.Proof.CompletionClose
import Verif.Proof.Panics

/-! # When completion does not panic -/

namespace Html
open Spec

/-- The computation returns. -/
def Returns {α : Type} (r : R α) : Prop := ∃ a, r = .ok a

theorem Returns.ok {α : Type} (a : α) : Returns (.ok a : R α) := ⟨a, rfl⟩

theorem Returns.bind {α β : Type} {r : R α} {f : α → R β} (h : Returns r) (hf : ∀ a, r = .ok a → Returns (f a)) :
    Returns (r >>= f) := by
  obtain ⟨a, h⟩ := h
  rw [h]
  exact hf a h

theorem slice_returns {src : Str} (ha : isAscii src) {a b : Nat} (h : a ≤ b) (hb : b ≤ src.length) :
    sliceStr src a b = .ok (bytesIn src a b) := by
  unfold sliceStr bytesIn
  simp [isAscii_boundary ha hb, isAscii_boundary ha (Nat.le_trans h hb), h, hb]

/-! ### What the scanner does -/

theorem wsLen_of_head {r : Str} {b : Nat} (h : r.head? = some b) (hw : isWs b = false) : wsLen r = 0 :=
  (wsLen_zero_iff (s := r)).2 (fun c hc => by rw [h] at hc; cases hc; exact hw)

/-- White space behind a name and attributes is not in a nameless start tag. -/
theorem Step.ws_named {c : Cfg} {p s : Sc} (h : Step c p s) (hk : s.tokenType = .Whitespace) :
    (s.state = .AfterOpeningStartTag ∧ p.state = .AfterOpeningStartTag) ∨
    ((s.state = .WithinTag ∨ s.state = .AfterAttributeName) ∧ p.state.inStart = true ∧ ¬ Nameless c p) ∨
    (s.state = .AfterOpeningEndTag ∧ p.state = .AfterOpeningEndTag) ∨ s.state = .WithinEndTag := by
  have nn : ∀ st : SS, p.state = st → st ≠ .AfterOpeningStartTag → st ≠ .WithinTag → ¬ Nameless c p := by
    rintro st hs h1 h2 (h | ⟨h, _⟩)
    · exact h1 (hs ▸ h)
    · exact h2 (hs ▸ h)
  cases h with
  | endTag _ h hs hx => cases hx <;> simp [fin, adv, hs] at hk ⊢
  | content _ h hs hx => cases hx <;> simp [fin, adv] at hk
  | scriptContent _ h hs hl hx => cases hx <;> simp [fin, adv] at hk
  | styleContent _ h hs hb h0 hx => cases hx <;> simp [fin, adv] at hk
  | tag _ h hs hx =>
    cases hx with
    | ws h0 =>
      refine .inr (.inl ⟨.inl (by simp [fin, adv, hs]), by rw [hs]; rfl, ?_⟩)
      rintro (h1 | ⟨_, h1 | h1⟩)
      · rw [h1] at hs; cases hs
      · rw [wsLen_of_head h1 rfl] at h0; omega
      · rw [h1] at h0; cases h0
    | _ => simp [fin, adv] at hk
  | afterNameTag _ h hs hw h0 hx =>
    cases hx with
    | ws h1 => exact .inr (.inl ⟨.inl (by simp [fin, adv]), by rw [hs]; rfl, nn _ hs (by decide) (by decide)⟩)
    | _ => simp [fin, adv] at hk
  | valueTag _ h hs hw hb h0 h1 hx =>
    cases hx with
    | ws h1 => exact .inr (.inl ⟨.inl (by simp [fin, adv]), by rw [hs]; rfl, nn _ hs (by decide) (by decide)⟩)
    | _ => simp [fin, adv] at hk
  | afterNameWs h hs h0 =>
    exact .inr (.inl ⟨.inr (by simp [fin, adv, hs]), by rw [hs]; rfl, nn _ hs (by decide) (by decide)⟩)
  | valueWs h hs h0 =>
    exact .inr (.inl ⟨.inl (by simp [fin, adv]), by rw [hs]; rfl, nn _ hs (by decide) (by decide)⟩)
  | endTagWs h hs hb hn h0 => exact .inr (.inr (.inl ⟨by simp [fin, adv, hs], hs⟩))
  | startTagWs h hs hb hn h0 => exact .inl ⟨by simp [fin, adv, hs], hs⟩
  | _ => simp [fin, adv] at hk

/-! ### The helpers -/

theorem followedBy_total {c : Cfg} {k : TT} {f : Nat} {s : Sc} (hn : AsciiNext c.src) (hl : LastByte c.src)
    (hb : isBoundary c.src s.pos = true) (hs : s.state ≠ .BeforeAttributeValue) (hf : mu c s + 1 < f) :
    Returns (followedBy c k f s) := by
  induction f generalizing s with
  | zero => omega
  | succ f ih =>
    unfold followedBy
    have hle := isBoundary_le hb
    cases h1 : scan c s with
    | error e =>
      rcases (scan_panics_iff hn hl (.inl hb) hle).1 ⟨e, h1⟩ with ⟨_, _, h2⟩ | ⟨h2, _⟩
      · rw [hb] at h2; cases h2
      · exact absurd h2 hs
    | ok s1 =>
      show Returns (if s1.tokenType = .Whitespace then followedBy c k f s1 else .ok _)
      split
      · rename_i hw
        have st := scan_step h1
        have hmu := st.mu_lt (by rw [hw]; decide)
        refine ih (st.end_boundary hn hle (.inl hb) (by rw [hw]; decide)) ?_ (by omega)
        rcases st.ws_named hw with ⟨e, _⟩ | ⟨e | e, _⟩ | ⟨e, _⟩ | e <;> rw [e] <;> decide
      · exact .ok _

theorem lineIndent_total {cps : List Nat} {src : Str} (hu : Utf8 cps src) {o k : Nat} (ho : isBoundary src o = true)
    (hk : k ≤ o) : ∃ r, lineIndent src o k = .ok r ∧ ∀ i, r = some i → i.length ≤ o := by
  induction k with
  | zero =>
    have h0 : isBoundary src 0 = true := by obtain ⟨hc, rfl⟩ := hu; exact utf8_start hc
    rw [lineIndent, sliceStr_eq (Nat.zero_le _) h0 ho]
    refine ⟨_, rfl, ?_⟩
    rintro i h
    cases h
    simp [bytesIn]; omega
  | succ k ih =>
    rw [lineIndent]
    split
    · exact ih (by omega)
    · rename_i c hc
      split
      · rename_i h10
        subst h10
        rw [sliceStr_eq hk (getStr_one.1 hc).2.2 ho]
        refine ⟨_, rfl, ?_⟩
        rintro i h
        cases h
        simp [bytesIn]; omega
      · split
        · exact ih (by omega)
        · exact ⟨_, rfl, by simp⟩

/-- An ASCII character is a piece of the text. -/
theorem slice_ascii {src : Str} (hn : AsciiNext src) {i b : Nat} (h : src[i]? = some b) (hb : b < 128) :
    sliceStr src i (i + 1) = .ok [b] := by
  rw [sliceStr_eq (by omega) (isBoundary_ascii h hb) (hn i b h hb)]
  congr 1
  obtain ⟨hl, rfl⟩ := List.getElem?_eq_some_iff.1 h
  unfold bytesIn
  rw [List.drop_eq_getElem_cons (by simp; omega)]
  simp

theorem wordStart_total {src : Str} (hn : AsciiNext src) {lo o : Nat} (ho : o ≤ src.length)
    (hr : ∀ k c, lo ≤ k → k < o → src[k]? = some c → 128 ≤ c → ∃ j x, k < j ∧ j < o ∧ src[j]? = some x ∧ BlankByte x) :
    Returns (wordStart src lo o) := by
  induction o with
  | zero => exact .ok _
  | succ o ih =>
    rw [wordStart]
    split
    · have hg : src[o]? = some src[o] := List.getElem?_eq_getElem (by omega)
      have hb : src[o] < 128 := by
        rcases Nat.lt_or_ge src[o] 128 with h | h
        · exact h
        · obtain ⟨j, x, h1, h2, _⟩ := hr o _ (by omega) (by omega) hg h
          omega
      rw [slice_ascii hn hg hb]
      refine Returns.bind (.ok _) (fun c hc => ?_)
      cases hc
      split
      · exact .ok _
      · rename_i hw
        refine ih (by omega) (fun k c h1 h2 h3 h4 => ?_)
        obtain ⟨j, x, h5, h6, h7, h8⟩ := hr k c h1 (by omega) h3 h4
        refine ⟨j, x, h5, ?_, h7, h8⟩
        rcases Nat.lt_or_ge j o with h9 | h9
        · exact h9
        · have : j = o := by omega
          subst this
          rw [hg] at h7; cases h7
          exact absurd ((white_byte hb).2 h8) hw
    · exact .ok _

theorem wordEnd_total {src : Str} (hn : AsciiNext src) {f o : Nat} (ho : o + f ≤ src.length)
    (hr : ∀ k c, o ≤ k → k < o + f → src[k]? = some c → 128 ≤ c → ∃ j x, o ≤ j ∧ j < k ∧ src[j]? = some x ∧ BlankByte x) :
    Returns (wordEnd src f o) := by
  induction f generalizing o with
  | zero => exact .ok _
  | succ f ih =>
    have hg : src[o]? = some src[o] := List.getElem?_eq_getElem (by omega)
    have hb : src[o] < 128 := by
      rcases Nat.lt_or_ge src[o] 128 with h | h
      · exact h
      · obtain ⟨j, x, h1, h2, _⟩ := hr o _ (by omega) (by omega) hg h
        omega
    rw [wordEnd, slice_ascii hn hg hb]
    refine Returns.bind (.ok _) (fun c hc => ?_)
    cases hc
    split
    · exact .ok _
    · rename_i hw
      refine ih (by omega) (fun k c h1 h2 h3 h4 => ?_)
      obtain ⟨j, x, h5, h6, h7, h8⟩ := hr k c (by omega) (by omega) h3 h4
      refine ⟨j, x, ?_, h6, h7, h8⟩
      rcases Nat.lt_or_ge o j with h9 | h9
      · exact h9
      · have : j = o := by omega
        subst this
        rw [hg] at h7; cases h7
        exact absurd ((white_byte hb).2 h8) hw

/-- In front of `p` are `</` and white space. -/
def CloseBehind (src : Str) (p : Nat) : Prop :=
  ∃ q, 1 ≤ q ∧ q < p ∧ src[q - 1]? = some 60 ∧ src[q]? = some 47 ∧
    ∀ j, q < j → j < p → ∃ b, src[j]? = some b ∧ isWs b = true

theorem isWs_lt {b : Nat} (h : isWs b = true) : b < 128 := by
  unfold isWs at h; simp at h; omega

theorem isWs_white {b : Nat} (h : isWs b = true) : isWhite [b] = true :=
  (white_byte (isWs_lt h)).2 (by unfold isWs at h; simp at h; omega)

theorem CloseBehind.ascii {src : Str} {p : Nat} (h : CloseBehind src p) {k : Nat} (h1 : p ≤ k + 2) (h2 : k < p) :
    ∃ b, src[k]? = some b ∧ b < 128 := by
  obtain ⟨q, q1, q2, q3, q4, q5⟩ := h
  rcases Nat.lt_trichotomy k q with h | h | h
  · exact ⟨60, by rw [show k = q - 1 by omega]; exact q3, by omega⟩
  · exact ⟨47, by rw [h]; exact q4, by omega⟩
  · obtain ⟨b, hb, hw⟩ := q5 k h h2
    exact ⟨b, hb, isWs_lt hw⟩

theorem slashBefore_total {src : Str} (hn : AsciiNext src) {q k : Nat} (h1 : 1 ≤ q) (hq : src[q]? = some 47)
    (hw : ∀ j, q < j → j ≤ k → ∃ b, src[j]? = some b ∧ isWs b = true) (hk : q ≤ k) :
    slashBefore src k = .ok (some q) := by
  induction k with
  | zero => omega
  | succ k ih =>
    rw [slashBefore]
    unfold getStr
    rcases Nat.eq_or_lt_of_le hk with h | h
    · subst h
      rw [show k + 2 = k + 1 + 1 from rfl, slice_ascii hn hq (by omega)]
      rfl
    · obtain ⟨b, hb, hb'⟩ := hw (k + 1) h (Nat.le_refl _)
      rw [show k + 2 = k + 1 + 1 from rfl, slice_ascii hn hb (isWs_lt hb')]
      have : [b] ≠ b!"/" := by
        intro he
        injection he with he
        subst he
        cases hb'
      show (if [b] = b!"/" then _ else if isWhite [b] = true then slashBefore src k else _) = _
      rw [if_neg this, if_pos (isWs_white hb')]
      exact ih (fun j h2 h3 => hw j h2 (by omega)) (by omega)

/-! ### The answers -/

variable {x : CompCtx}

/-- The text is UTF-8, and the cursor and the nodes of the context stand between characters. -/
structure CompCtx.Fits (x : CompCtx) (cps : List Nat) : Prop where
  utf8 : Utf8 cps x.doc.text
  offset : x.offset ≤ x.doc.text.length → isBoundary x.doc.text x.offset = true
  node : isBoundary x.doc.text x.node.start = true
  parents : ∀ n ∈ x.parents, isBoundary x.doc.text n.start = true

theorem CompCtx.Fits.next {cps : List Nat} (h : x.Fits cps) : AsciiNext x.doc.text := asciiNext_of_utf8 h.utf8

variable {cps : List Nat}

theorem CompCtx.followed_total (hu : Utf8 cps x.doc.text) {a : Nat} (h : isBoundary x.doc.text a = true) {st : SS}
    (hs : st ≠ .BeforeAttributeValue) (k : TT) : Returns (x.isFollowedBy a st k) := by
  unfold CompCtx.isFollowedBy
  refine followedBy_total (c := x.env.cfg x.doc false) (asciiNext_of_utf8 hu) (lastByte_of_utf8 hu) h hs ?_
  have := mu_le (x.env.cfg x.doc false) (.new a st)
  have e1 : (x.env.cfg x.doc false).src.length = x.doc.text.length := rfl
  have e2 : (Sc.new a st).pos = a := rfl
  omega

theorem CompCtx.nextEnd_total (h : x.Fits cps) {s : Sc} (hi : WInv (x.env.cfg x.doc true) s)
    (hs : Returns (scan (x.env.cfg x.doc true) s)) {k : TT} (hk : k ≠ .Unknown)
    (ho : x.offset ≤ x.doc.text.length) :
    ∃ a, x.nextEnd s k = .ok a ∧ isBoundary x.doc.text a = true ∧ x.offset ≤ a := by
  unfold CompCtx.nextEnd
  split
  · rename_i he
    obtain ⟨s1, h1⟩ := hs
    rw [h1]
    refine ⟨_, rfl, ?_⟩
    split
    · rename_i hk'
      refine ⟨(scan_step h1).end_boundary h.next (he ▸ ho) hi (by rw [hk'.1]; exact hk), ?_⟩
      have := (scan_step h1).offset_le
      omega
    · exact ⟨h.offset ho, Nat.le_refl _⟩
  · exact ⟨_, rfl, h.offset ho, Nat.le_refl _⟩

theorem CompCtx.closeItem_total (hu : Utf8 cps x.doc.text) {n : Node} (hn : isBoundary x.doc.text n.start = true)
    (t c : Str) {a b : Nat} (h1 : 1 ≤ a) (h2 : isBoundary x.doc.text (a - 1) = true) :
    Returns (x.closeItem n t c a b) := by
  unfold CompCtx.closeItem getLineIndent
  obtain ⟨r1, e1, e0⟩ := lineIndent_total hu hn (Nat.le_refl _)
  clear e0
  obtain ⟨r2, e2, e3⟩ := lineIndent_total hu h2 (Nat.le_refl _)
  have e4 : subU a 1 = .ok (a - 1) := by unfold subU; rw [if_pos h1]
  rw [e1, e4]
  simp only [bind, Except.bind]
  rw [e2]
  simp only
  split
  · rename_i ei
    split
    · have : subU (a - 1) ei.length = .ok (a - 1 - ei.length) := by
        unfold subU; rw [if_pos (e3 _ rfl)]
      rw [this]
      exact .ok _
    · exact .ok _
  · exact .ok _

theorem CompCtx.closeTags_total (h : x.Fits cps) {a b : Nat} (io : Bool) (h1 : 1 ≤ a)
    (h2 : isBoundary x.doc.text (a - 1) = true) (h3 : isBoundary x.doc.text b = true) :
    Returns (x.closeTags a io b) := by
  unfold CompCtx.closeTags
  refine Returns.bind (CompCtx.followed_total h.utf8 h3 (by decide) _) (fun f _ => ?_)
  split
  · rename_i n hn
    have hm : n = x.node ∨ n ∈ x.parents := by
      unfold CompCtx.toClose firstUp at hn
      cases io
      · have := List.mem_of_find?_eq_some hn
        simpa using this
      · have := List.mem_of_find?_eq_some hn
        right; simpa using this
    have hs : isBoundary x.doc.text n.start = true := by
      rcases hm with rfl | hm
      · exact h.node
      · exact h.parents _ hm
    exact Returns.bind (CompCtx.closeItem_total h.utf8 hs _ _ h1 h2) (fun _ _ => .ok _)
  · exact .ok _

theorem CompCtx.tags_total (h : x.Fits cps) {a b : Nat} (h1 : 1 ≤ a) (h2 : isBoundary x.doc.text (a - 1) = true)
    (h3 : isBoundary x.doc.text b = true) : Returns (x.tags a b) := by
  unfold CompCtx.tags
  exact Returns.bind (CompCtx.closeTags_total h _ h1 h2 h3) (fun _ _ => .ok _)

theorem CompCtx.providerAttrs_total (r : Range) (v t : Str) (ps : List Provider) (ex : HMap Bool) :
    Returns (x.providerAttrs r v (some t) ps ex) := by
  induction ps generalizing ex with
  | nil => exact .ok _
  | cons p ps ih =>
    unfold CompCtx.providerAttrs
    exact Returns.bind (.ok _) (fun _ _ => Returns.bind (ih _) (fun _ _ => .ok _))

theorem CompCtx.attrNames_total (h : x.Fits cps) (t : Str) {a b : Nat} (ho : x.offset ≤ x.doc.text.length)
    (h1 : isBoundary x.doc.text a = true) (h2 : isBoundary x.doc.text b = true) :
    Returns (x.attrNames (some t) a b) := by
  have hb : ∀ i, i = a ∨ i = b ∨ i = x.offset → isBoundary x.doc.text i = true := by
    rintro i (rfl | rfl | rfl)
    · exact h1
    · exact h2
    · exact h.offset ho
  unfold CompCtx.attrNames
  simp only
  rw [sliceStr_eq (by omega) (hb _ (by omega)) (hb _ (by omega))]
  refine Returns.bind (.ok _) (fun _ _ => ?_)
  refine Returns.bind (CompCtx.followed_total h.utf8 h2 (by decide) _) (fun _ _ => ?_)
  exact Returns.bind (CompCtx.providerAttrs_total _ _ _ _ _) (fun _ _ => .ok _)

theorem CompCtx.contentEnd_le (a b : Nat) : x.contentEnd a b ≤ b := by
  unfold CompCtx.contentEnd; split <;> omega

theorem CompCtx.attrValues_total (h : x.Fits cps) (t : Option Str) (n : Str) {a b : Nat} (h1 : a ≤ x.offset)
    (h2 : x.offset ≤ b) (ha : isBoundary x.doc.text a = true) (h3 : b ≤ x.doc.text.length)
    (hr : a < x.offset → ¬ Unreadable x.doc.text a b x.offset) : Returns (x.attrValues t n a b) := by
  have hn := h.next
  unfold CompCtx.attrValues
  refine Returns.bind ?_ (fun _ _ => .ok _)
  unfold CompCtx.valueRange CompCtx.inQuotes
  by_cases hlt : a < x.offset
  · rw [if_pos ⟨hlt, h2⟩]
    have hr := hr hlt
    have hg : x.doc.text[a]? = some x.doc.text[a] := List.getElem?_eq_getElem (by omega)
    have hb : x.doc.text[a] < 128 := by
      rcases Nat.lt_or_ge x.doc.text[a] 128 with h | h
      · exact h
      · exact absurd (.inl ⟨_, hg, h⟩) hr
    rw [slice_ascii hn hg hb]
    show Returns (if [x.doc.text[a]].all isQuote = true then _ else _)
    split
    · rename_i hq
      have hq' : x.doc.text[a]? = some 34 ∨ x.doc.text[a]? = some 39 := by
        rw [hg]
        rcases isQuote_one.1 hq with h | h <;> simp [h]
      have hr' : ∀ k c, a < k → k < b → x.doc.text[k]? = some c → 128 ≤ c →
          ∃ j y, (k < j ∧ j < x.offset ∨ x.offset ≤ j ∧ j < k) ∧ x.doc.text[j]? = some y ∧ BlankByte y := by
        intro k c k1 k2 k3 k4
        refine Classical.byContradiction fun hx => hr (.inr ⟨hq', k, c, k1, k2, k3, k4, fun j y j1 j2 j3 => ?_⟩)
        exact hx ⟨j, y, j1, j2, j3⟩
      have := x.contentEnd_le a b
      refine Returns.bind (wordStart_total hn (by omega) fun k c k1 k2 k3 k4 => ?_) (fun _ _ => ?_)
      · obtain ⟨j, y, j1, j2⟩ := hr' k c (by omega) (by omega) k3 k4
        exact ⟨j, y, by omega, by omega, j2⟩
      refine Returns.bind (wordEnd_total hn (by omega) fun k c k1 k2 k3 k4 => ?_) (fun _ _ => ?_)
      · obtain ⟨j, y, j1, j2⟩ := hr' k c (by omega) (by omega) k3 k4
        exact ⟨j, y, by omega, by omega, j2⟩
      refine Returns.bind ?_ (fun _ _ => .ok _)
      split
      · rename_i hs
        rw [sliceStr_eq hs.1 (hn _ _ hg hb) (h.offset (by omega))]
        exact .ok _
      · exact .ok _
    · rw [sliceStr_eq h1 ha (h.offset (by omega))]
      exact Returns.bind (.ok _) (fun _ _ => .ok _)
  · rw [if_neg (by omega)]
    show Returns (do
      let pre ← sliceStr x.doc.text a x.offset
      .ok (x.replaceRange a b, pre, true))
    rw [sliceStr_eq h1 ha (h.offset (by omega))]
    exact Returns.bind (.ok _) (fun _ _ => .ok _)

/-- The position is one of the document. -/
structure CompCtx.AtPos (x : CompCtx) : Prop where
  columns : Columns x.doc
  exact : Exact x.doc x.position
  offset : x.doc.offsetAt x.position = x.offset

theorem CompCtx.insideContent_total (hu : Utf8 cps x.doc.text) (hp : x.AtPos) (h : x.offset ≤ x.doc.text.length) :
    Returns x.insideContent := by
  unfold CompCtx.insideContent
  obtain ⟨r, hr, _⟩ := entities_spec hu hp.columns hp.exact hp.offset h
  exact Returns.bind ⟨r, hr⟩ (fun _ _ => .ok _)

/-! ### Where the scanner is -/

/-- What holds of the scanner `p` and the current tag between two tokens. -/
structure Between (c : Cfg) (tag : Option Str) (p : Sc) : Prop where
  winv : WInv c p
  le : p.pos ≤ c.src.length
  tag : p.state.inStart = true → tag.isSome ∨ Nameless c p
  opn : p.state = .AfterOpeningStartTag → 1 ≤ p.pos ∧ ∃ b, c.src[p.pos - 1]? = some b ∧ b < 128
  close : p.state = .AfterOpeningEndTag → CloseBehind c.src p.pos

/-- The name of an end tag follows `</`. -/
theorem Step.endTag_state {c : Cfg} {p s : Sc} (h : Step c p s) (hk : s.tokenType = .EndTag) :
    p.state = .AfterOpeningEndTag := by
  cases h with
  | endTag _ h hs hx => cases hx <;> simp [fin, adv] at hk
  | content _ h hs hx => cases hx <;> simp [fin, adv] at hk
  | scriptContent _ h hs hl hx => cases hx <;> simp [fin, adv] at hk
  | styleContent _ h hs hb h0 hx => cases hx <;> simp [fin, adv] at hk
  | tag _ h hs hx => cases hx <;> simp [fin, adv] at hk
  | afterNameTag _ h hs hw h0 hx => cases hx <;> simp [fin, adv] at hk
  | valueTag _ h hs hw hb h0 h1 hx => cases hx <;> simp [fin, adv] at hk
  | endTagName h hs hb h0 => exact hs
  | _ => simp [fin, adv] at hk

theorem Step.attrName_state {c : Cfg} {p s : Sc} (h : Step c p s) (hk : s.tokenType = .AttributeName) :
    s.state = .AfterAttributeName := by
  cases h with
  | endTag _ h hs hx => cases hx <;> simp [fin, adv] at hk
  | content _ h hs hx => cases hx <;> simp [fin, adv] at hk
  | scriptContent _ h hs hl hx => cases hx <;> simp [fin, adv] at hk
  | styleContent _ h hs hb h0 hx => cases hx <;> simp [fin, adv] at hk
  | tag _ h hs hx => cases hx <;> first | rfl | simp [fin, adv] at hk
  | afterNameTag _ h hs hw h0 hx => cases hx <;> first | rfl | simp [fin, adv] at hk
  | valueTag _ h hs hw hb h0 h1 hx => cases hx <;> first | rfl | simp [fin, adv] at hk
  | _ => simp [fin, adv] at hk

theorem ws_bytes {c : Cfg} {s : Sc} {j : Nat} (h1 : s.pos ≤ j) (h2 : j < s.pos + wsLen (rest c s)) :
    ∃ b, c.src[j]? = some b ∧ isWs b = true := by
  have hle := wsLen_le (rest c s)
  have hlen : (rest c s).length = c.src.length - s.pos := by simp [rest]
  have hg : c.src[j]? = some (c.src[j]'(by omega)) := List.getElem?_eq_getElem (by omega)
  refine ⟨_, hg, wsLen_all (s := rest c s) ?_⟩
  refine List.mem_iff_getElem?.2 ⟨j - s.pos, ?_⟩
  rw [List.getElem?_take_of_lt (by omega)]
  unfold rest
  rw [List.getElem?_drop, show s.pos + (j - s.pos) = j by omega]
  exact hg

theorem Step.after_endOpen {c : Cfg} {p s : Sc} (h : Step c p s) (hk : s.state = .AfterOpeningEndTag)
    (hp : p.state = .AfterOpeningEndTag → CloseBehind c.src p.pos) : CloseBehind c.src s.pos := by
  have ns : ∀ a, afterStartTag a ≠ .AfterOpeningEndTag := by
    intro a h
    rcases afterStartTag_content a with h1 | h1 | h1 <;> rw [h1] at h <;> cases h
  have ct : ∀ {a : Sc}, StepContent c a s → a.state ≠ .AfterOpeningEndTag → CloseBehind c.src s.pos := by
    intro a hx ha
    clear h
    cases hx with
    | endTagOpen h1 =>
      obtain ⟨t, ht⟩ := List.isPrefixOf_iff_prefix.1 h1
      have e : ∀ k, c.src[a.pos + k]? = (rest c a)[k]? := by intro k; unfold rest; rw [List.getElem?_drop]
      refine ⟨a.pos + 1, by omega, by simp [fin, adv], ?_, ?_, fun j h2 h3 => ?_⟩
      · show c.src[a.pos + 0]? = _
        rw [e, ← ht]; rfl
      · rw [e, ← ht]; rfl
      · simp only [fin, adv] at h3
        omega
    | content h1 h2 => exact absurd hk ha
    | _ => simp [fin, adv] at hk
  cases h with
  | eos h => exact hp hk
  | endTag _ h hs hx => cases hx <;> simp [fin, adv, hs] at hk
  | content _ h hs hx => exact ct hx (by rw [hs]; decide)
  | scriptContent _ h hs hl hx => exact ct hx (by simp)
  | styleContent _ h hs hb h0 hx => exact ct hx (by simp)
  | tag _ h hs hx =>
    cases hx with
    | unknown s1 hp1 => simp [fin, adv, hp1.state_eq, hs] at hk
    | _ => simp [fin, adv, hs, ns] at hk
  | afterNameTag _ h hs hw h0 hx =>
    cases hx with
    | unknown s1 hp1 => simp [fin, adv, hp1.state_eq] at hk
    | _ => simp [fin, adv, ns] at hk
  | valueTag _ h hs hw hb h0 h1 hx =>
    cases hx with
    | unknown s1 hp1 => simp [fin, adv, hp1.state_eq] at hk
    | _ => simp [fin, adv, ns] at hk
  | endTagWs h hs hb hn h0 =>
    obtain ⟨q, q1, q2, q3, q4, q5⟩ := hp hs
    refine ⟨q, q1, by simp only [fin, adv]; omega, q3, q4, fun j h2 h3 => ?_⟩
    rcases Nat.lt_or_ge j p.pos with h4 | h4
    · exact q5 j h2 h4
    · exact ws_bytes h4 h3
  | script p st h hs hp hl hst =>
    rcases hst with ⟨e, _⟩ | ⟨e, _⟩ <;> simp [fin, e] at hk
  | _ => simp [fin, adv, *] at hk

theorem Step.after_startOpen {c : Cfg} {p s : Sc} (h : Step c p s) (hk : s.state = .AfterOpeningStartTag)
    (hp : p.state = .AfterOpeningStartTag → 1 ≤ p.pos ∧ ∃ b, c.src[p.pos - 1]? = some b ∧ b < 128) :
    1 ≤ s.pos ∧ ∃ b, c.src[s.pos - 1]? = some b ∧ b < 128 := by
  have ns : ∀ a, afterStartTag a ≠ .AfterOpeningStartTag := by
    intro a h
    rcases afterStartTag_content a with h1 | h1 | h1 <;> rw [h1] at h <;> cases h
  have ct : ∀ {a : Sc}, StepContent c a s → a.state ≠ .AfterOpeningStartTag →
      1 ≤ s.pos ∧ ∃ b, c.src[s.pos - 1]? = some b ∧ b < 128 := by
    intro a hx ha
    clear h
    cases hx with
    | startTagOpen h1 =>
      refine ⟨by simp [fin, adv], 60, ?_, by omega⟩
      rw [rest_head] at h1
      exact h1
    | content h1 h2 => exact absurd hk ha
    | _ => simp [fin, adv] at hk
  cases h with
  | eos h => exact hp hk
  | endTag _ h hs hx => cases hx <;> simp [fin, adv, hs] at hk
  | content _ h hs hx => exact ct hx (by rw [hs]; decide)
  | scriptContent _ h hs hl hx => exact ct hx (by simp)
  | styleContent _ h hs hb h0 hx => exact ct hx (by simp)
  | tag _ h hs hx =>
    cases hx with
    | unknown s1 hp1 => simp [fin, adv, hp1.state_eq, hs] at hk
    | _ => simp [fin, adv, hs, ns] at hk
  | afterNameTag _ h hs hw h0 hx =>
    cases hx with
    | unknown s1 hp1 => simp [fin, adv, hp1.state_eq] at hk
    | _ => simp [fin, adv, ns] at hk
  | valueTag _ h hs hw hb h0 h1 hx =>
    cases hx with
    | unknown s1 hp1 => simp [fin, adv, hp1.state_eq] at hk
    | _ => simp [fin, adv, ns] at hk
  | startTagWs h hs hb hn h0 =>
    obtain ⟨b, h1, h2⟩ := ws_bytes (c := c) (s := p) (j := p.pos + wsLen (rest c p) - 1) (by omega) (by omega)
    exact ⟨by simp only [fin, adv]; omega, b, h1, isWs_lt h2⟩
  | script p st h hs hp hl hst =>
    rcases hst with ⟨e, _⟩ | ⟨e, _⟩ <;> simp [fin, e] at hk
  | _ => simp [fin, adv, *] at hk

/-- Tags begin with `<`. -/
theorem Step.open_byte {c : Cfg} {p s : Sc} (h : Step c p s)
    (hk : s.tokenType = .StartTagOpen ∨ s.tokenType = .EndTagOpen) :
    c.src[p.pos]? = some 60 ∧ (s.tokenType = .StartTagOpen → s.pos = p.pos + 1) := by
  have ct : ∀ {a : Sc}, StepContent c a s → a.pos = p.pos →
      c.src[p.pos]? = some 60 ∧ (s.tokenType = .StartTagOpen → s.pos = p.pos + 1) := by
    intro a hx ha
    clear h
    rw [← ha, ← rest_head]
    cases hx with
    | startTagOpen h1 => exact ⟨h1, fun _ => rfl⟩
    | endTagOpen h1 =>
      obtain ⟨t, ht⟩ := List.isPrefixOf_iff_prefix.1 h1
      exact ⟨by rw [← ht]; rfl, fun h => by cases h⟩
    | _ => simp [fin, adv] at hk
  cases h with
  | endTag _ h hs hx => cases hx <;> simp [fin, adv] at hk
  | content _ h hs hx => exact ct hx rfl
  | scriptContent _ h hs hl hx => exact ct hx rfl
  | styleContent _ h hs hb h0 hx => exact ct hx rfl
  | tag _ h hs hx => cases hx <;> simp [fin, adv] at hk
  | afterNameTag _ h hs hw h0 hx => cases hx <;> simp [fin, adv] at hk
  | valueTag _ h hs hw hb h0 h1 hx => cases hx <;> simp [fin, adv] at hk
  | _ => simp [fin, adv] at hk

theorem Step.startName_boundary {c : Cfg} {p s : Sc} (h : Step c p s) (hk : s.tokenType = .StartTag) :
    isBoundary c.src p.pos = true := by
  cases h with
  | endTag _ h hs hx => cases hx <;> simp [fin, adv] at hk
  | content _ h hs hx => cases hx <;> simp [fin, adv] at hk
  | scriptContent _ h hs hl hx => cases hx <;> simp [fin, adv] at hk
  | styleContent _ h hs hb h0 hx => cases hx <;> simp [fin, adv] at hk
  | tag _ h hs hx => cases hx <;> simp [fin, adv] at hk
  | afterNameTag _ h hs hw h0 hx => cases hx <;> simp [fin, adv] at hk
  | valueTag _ h hs hw hb h0 h1 hx => cases hx <;> simp [fin, adv] at hk
  | startTagName h hs hb h0 => exact hb
  | _ => simp [fin, adv] at hk

/-- What holds between two tokens goes on to hold. -/
theorem Between.next {c : Cfg} {tag tag' : Option Str} {p s : Sc} (hc : AsciiNext c.src) (hb : Between c tag p)
    (hs : scan c p = .ok s) (hne : s.tokenType ≠ .EOS)
    (ht : if s.tokenType = .StartTag then tag'.isSome else tag' = tag) : Between c tag' s := by
  have st := scan_step hs
  have sf := st.startFacts hne
  refine ⟨st.winv hc hb.winv, (st.pos_le hb.le).2, fun h1 => ?_, fun h1 => st.after_startOpen h1 hb.opn,
    fun h1 => st.after_endOpen h1 hb.close⟩
  split at ht
  · exact .inl ht
  · rename_i hk
    subst ht
    by_cases ho : s.tokenType = .StartTagOpen
    · exact .inr (.inl (sf.enter ho).2.1)
    · rcases hb.tag (sf.stay h1 ho).1 with h2 | h2
      · exact .inl h2
      · exact .inr (sf.nameless h1 h2 hk).1

/-- All further scans return, and the attribute value at the cursor can be read. -/
def CompCtx.Smooth (x : CompCtx) (p : Sc) : Prop :=
  ∀ n, ∃ s, scanN (x.env.cfg x.doc true) n p = .ok s ∧
    (s.tokenType = .AttributeValue → s.tokenOffset < x.offset → x.offset ≤ s.pos →
      ¬ Unreadable x.doc.text s.tokenOffset s.pos x.offset)

theorem CompCtx.Smooth.scan {p : Sc} (h : x.Smooth p) :
    ∃ s, scan (x.env.cfg x.doc true) p = .ok s ∧ x.Smooth s := by
  obtain ⟨s, h1, _⟩ := h 1
  unfold scanN at h1
  obtain ⟨s1, h1, _⟩ := bind_ok h1
  refine ⟨s1, h1, fun n => ?_⟩
  obtain ⟨s2, h2, h3⟩ := h (n + 1)
  unfold scanN at h2
  rw [h1] at h2
  exact ⟨s2, h2, h3⟩

theorem CompCtx.Smooth.next {p s : Sc} (h : x.Smooth p) (hs : Html.scan (x.env.cfg x.doc true) p = .ok s) :
    x.Smooth s := by
  obtain ⟨s1, h1, h2⟩ := h.scan
  rw [hs] at h1; cases h1
  exact h2

/-- The answer for a token is computed, and the loop goes on. -/
theorem CompCtx.onToken_total (h : x.Fits cps) (hp : x.AtPos) {tag : Option Str} {p s : Sc}
    (hb : Between (x.env.cfg x.doc true) tag p) (hs : scan (x.env.cfg x.doc true) p = .ok s) (hm : x.Smooth s)
    (hne : s.tokenType ≠ .EOS) (hlt : s.tokenOffset < x.offset) (attr : Str) :
    Returns (x.onToken tag attr s) := by
  have st := scan_step hs
  have hn := h.next
  have hi : WInv (x.env.cfg x.doc true) s := st.winv hn hb.winv
  have hto : s.tokenOffset = p.pos := st.facts.1
  have hle : s.pos ≤ x.doc.text.length := (st.pos_le hb.le).2
  have hoff : s.tokenOffset ≤ s.pos := st.offset_le
  have hsc : Returns (scan (x.env.cfg x.doc true) s) := by
    obtain ⟨s1, h1, _⟩ := hm.scan
    exact ⟨s1, h1⟩
  have hend : s.tokenType ≠ .Unknown → isBoundary x.doc.text s.pos = true := st.end_boundary hn hb.le hb.winv
  have named : p.state.inStart = true → ¬ Nameless (x.env.cfg x.doc true) p → ∃ t, tag = some t := by
    intro h1 h2
    rcases hb.tag h1 with h3 | h3
    · exact Option.isSome_iff_exists.1 h3
    · exact absurd h3 h2
  unfold CompCtx.onToken
  split
  · rename_i hk
    unfold CompCtx.onStartTagOpen
    split
    · rename_i h1
      obtain ⟨b, e1, e2, e3⟩ := CompCtx.nextEnd_total h hi hsc (k := .StartTag) (by decide) (by omega)
      have hb1 : isBoundary x.doc.text (x.offset - 1) = true := by
        have := (st.open_byte (.inl hk)).2 hk
        rw [show x.offset - 1 = p.pos by omega]
        exact isBoundary_ascii (st.open_byte (.inl hk)).1 (by omega)
      exact Returns.bind ⟨b, e1⟩ (fun b' hb' => by
        rw [e1] at hb'; cases hb'
        exact Returns.bind (CompCtx.tags_total h (by omega) hb1 e2) (fun _ _ => .ok _))
    · exact .ok _
  · exact .ok _
  · rename_i hk
    unfold CompCtx.onAttributeName
    split
    · rename_i h1
      unfold CompCtx.touches at h1
      simp only [Bool.and_eq_true, decide_eq_true_eq] at h1
      have sf := st.startFacts hne
      have e1 := st.attrName_state hk
      have e2 := sf.stay (by rw [e1]; rfl) (by rw [hk]; decide)
      obtain ⟨t, rfl⟩ := named e2.1 (fun hn => (sf.nameless (by rw [e1]; rfl) hn (by rw [hk]; decide)).2 hk)
      have hbd := st.attrBd hn (.inl hk)
      exact Returns.bind (CompCtx.attrNames_total h _ (by omega) (hto ▸ hbd.1) hbd.2) (fun _ _ => .ok _)
    · exact .ok _
  · unfold CompCtx.onDelimiterAssign
    split
    · rename_i h1
      obtain ⟨b, e1, e2, e3⟩ := CompCtx.nextEnd_total h hi hsc (k := .AttributeValue) (by decide) (by omega)
      refine Returns.bind ⟨b, e1⟩ (fun b' hb' => ?_)
      rw [e1] at hb'; cases hb'
      exact Returns.bind (CompCtx.attrValues_total h _ _ (Nat.le_refl _) e3 (h.offset (by omega)) (isBoundary_le e2)
        (fun h => absurd h (Nat.lt_irrefl _))) (fun _ _ => .ok _)
    · exact .ok _
  · rename_i hk
    unfold CompCtx.onAttributeValue
    split
    · rename_i h1
      unfold CompCtx.touches at h1
      simp only [Bool.and_eq_true, decide_eq_true_eq] at h1
      obtain ⟨_, e1, e2⟩ := hm 0
      cases e1
      exact Returns.bind (CompCtx.attrValues_total h _ _ h1.1 h1.2 (hto ▸ (st.attrBd hn (.inr hk)).1) hle
        (fun _ => e2 hk hlt h1.2)) (fun _ _ => .ok _)
    · exact .ok _
  · rename_i hk
    unfold CompCtx.onWhitespace
    split
    · rename_i h1
      rcases st.ws_named hk with ⟨e1, e2⟩ | ⟨e1, e2, e3⟩ | ⟨e1, e2⟩ | e1
      · rw [e1]
        obtain ⟨b, e3, e4, _⟩ := CompCtx.nextEnd_total h hi hsc (k := .StartTag) (by decide) (by omega)
        refine Returns.bind ⟨b, e3⟩ (fun b' hb' => ?_)
        rw [e3] at hb'; cases hb'
        obtain ⟨o1, y, o2, o3⟩ := hb.opn e2
        exact Returns.bind (CompCtx.tags_total h (by omega) (by rw [hto]; exact isBoundary_ascii o2 o3) e4)
          (fun _ _ => .ok _)
      · obtain ⟨t, rfl⟩ := named e2 e3
        rcases e1 with e1 | e1 <;> rw [e1] <;>
          exact Returns.bind (CompCtx.attrNames_total h _ (by omega) (hend (by rw [hk]; decide)) (h.offset (by omega)))
            (fun _ _ => .ok _)
      · rw [e1]
        have hcl := hb.close e2
        have h2 : 2 ≤ s.tokenOffset := by
          obtain ⟨q, q1, q2, _⟩ := hcl
          omega
        have h3 : subU s.tokenOffset 1 = .ok (s.tokenOffset - 1) := by unfold subU; rw [if_pos (by omega)]
        simp only [h3]
        refine Returns.bind (.ok _) (fun a ha => ?_)
        cases ha
        obtain ⟨y, o2, o3⟩ := hcl.ascii (k := p.pos - 2) (by omega) (by omega)
        refine Returns.bind (CompCtx.closeTags_total h _ (by omega) ?_ (h.offset (by omega))) (fun _ _ => .ok _)
        rw [show s.tokenOffset - 1 - 1 = p.pos - 2 by omega]
        exact isBoundary_ascii o2 o3
      · rw [e1]; exact .ok _
    · exact .ok _
  · exact .ok _
  · unfold CompCtx.onContent
    split
    · exact Returns.bind (CompCtx.insideContent_total h.utf8 hp (by omega)) (fun _ _ => .ok _)
    · exact .ok _
  · rename_i hk
    unfold CompCtx.onEndTagOpen
    split
    · obtain ⟨b, e3, e4, _⟩ := CompCtx.nextEnd_total h hi hsc (k := .EndTag) (by decide) (by omega)
      refine Returns.bind ⟨b, e3⟩ (fun b' hb' => ?_)
      rw [e3] at hb'; cases hb'
      refine Returns.bind (CompCtx.closeTags_total h _ (by omega) ?_ e4) (fun _ _ => .ok _)
      rw [Nat.add_sub_cancel, hto]
      exact isBoundary_ascii (st.open_byte (.inr hk)).1 (by omega)
    · exact .ok _
  · rename_i hk
    unfold CompCtx.onEndTag
    split
    · obtain ⟨q, q1, q2, q3, q4, q5⟩ := hb.close (st.endTag_state hk)
      have h3 : subU s.tokenOffset 1 = .ok (s.tokenOffset - 1) := by unfold subU; rw [if_pos (by omega)]
      simp only [h3]
      have e1 := slashBefore_total hn (k := s.tokenOffset - 1) q1 q4 (fun j j1 j2 => q5 j j1 (by omega)) (by omega)
      refine Returns.bind (.ok _) (fun a ha => ?_)
      cases ha
      refine Returns.bind ⟨_, e1⟩ (fun r' hr' => ?_)
      rw [e1] at hr'; cases hr'
      exact Returns.bind (CompCtx.closeTags_total h _ q1 (isBoundary_ascii q3 (by omega))
        (hend (by rw [hk]; decide))) (fun _ _ => .ok _)
    · exact .ok _
  · exact .ok _

theorem CompCtx.loop_total (h : x.Fits cps) (hp : x.AtPos) {f : Nat} {tag : Option Str} {attr : Str} {p s : Sc}
    (hb : Between (x.env.cfg x.doc true) tag p) (hs : scan (x.env.cfg x.doc true) p = .ok s) (hm : x.Smooth s)
    (hf : (s.tokenType = .EOS ∧ 0 < f) ∨ mu (x.env.cfg x.doc true) s + 1 < f) :
    Returns (x.loop f tag attr s) := by
  induction f generalizing tag attr p s with
  | zero => omega
  | succ f ih =>
    unfold CompCtx.loop
    split
    · rename_i hc
      have st := scan_step hs
      have hto : s.tokenOffset = p.pos := st.facts.1
      have ht : s.tokenType = .StartTag ∨ s.tokenType = .AttributeName →
          tokenText (x.env.cfg x.doc true) s = .ok (bytesIn x.doc.text s.tokenOffset s.pos) := by
        intro hk
        refine sliceStr_eq (s := x.doc.text) st.offset_le ?_ (st.end_boundary h.next hb.le hb.winv ?_)
        · rw [hto]
          rcases hk with hk | hk
          · exact st.startName_boundary hk
          · exact (st.attrBd h.next (.inl hk)).1
        · rcases hk with hk | hk <;> rw [hk] <;> decide
      refine Returns.bind (CompCtx.onToken_total h hp hb hs hm hc.1 hc.2 attr) (fun r _ => ?_)
      split
      · exact .ok _
      · refine Returns.bind ?_ (fun tag' ht' => ?_)
        · unfold CompCtx.nextTag
          split
          · rename_i hk
            rw [ht (.inl hk)]; exact .ok _
          · exact .ok _
        · refine Returns.bind ?_ (fun attr' _ => ?_)
          · unfold CompCtx.nextAttr
            split
            · rename_i hk
              rw [ht (.inr hk)]; exact .ok _
            · exact .ok _
          · have hb' : Between (x.env.cfg x.doc true) tag' s := by
              refine hb.next h.next hs hc.1 ?_
              unfold CompCtx.nextTag at ht'
              split at ht'
              · rename_i hk
                rw [ht (.inl hk)] at ht'; cases ht'; rw [if_pos hk]; rfl
              · cases ht'; rename_i hk; rw [if_neg hk]
            obtain ⟨s1, e1, e2⟩ := hm.scan
            refine Returns.bind ⟨s1, e1⟩ (fun s2 hs2 => ?_)
            rw [e1] at hs2; cases hs2
            refine ih hb' e1 e2 ?_
            rcases hf with hf | hf
            · exact absurd hf.1 hc.1
            · by_cases he : s1.tokenType = .EOS
              · exact .inl ⟨he, by omega⟩
              · have := (scan_step e1).mu_lt he
                exact .inr (by omega)
    · exact .ok _

/-- Completion at a position of the document returns, if all scans return and the attribute value at the cursor
can be read. -/
theorem complete_total {cps : List Nat} {e : CompEnv} {u : Uni} {cs : Bool} {void : List Str} {d : TextDoc}
    {position : Pos} {roots : List Node} (hu : Utf8 cps d.text) (hc : Columns d) (hp : Exact d position)
    (ho : d.offsetAt position ≤ d.text.length → isBoundary d.text (d.offsetAt position) = true)
    (h : parse u cs void d.text = .ok roots)
    (hm : ∀ m ps, InForest roots m →
      CompCtx.Smooth ⟨e, d, position, d.offsetAt position, m, ps, roots⟩ (.new m.start .WithinContent)) :
    ∃ r, doComplete e d position roots = .ok r := by
  unfold doComplete
  simp only
  split
  · exact ⟨_, rfl⟩
  · rename_i node parents hf
    obtain ⟨_, h2, _⟩ := Props.C23_last_node_before _ _ _ _ _ _ _ _ h hf
    obtain ⟨h3, h4⟩ := chain_inForest h2
    have hlt : ∀ n, InForest roots n → isBoundary d.text n.start = true := fun n hn =>
      isBoundary_ascii (parse_done h hn).opn (by omega)
    obtain ⟨s, e1, e2⟩ := (hm node parents h3).scan
    have e1 : scan (e.cfg d true) (.new node.start .WithinContent) = .ok s := e1
    rw [e1]
    refine CompCtx.loop_total (x := ⟨e, d, position, d.offsetAt position, node, parents, roots⟩)
      ⟨hu, ho, hlt _ h3, fun n hn => hlt _ (h4 n hn)⟩ ⟨hc, hp, rfl⟩
      (p := .new node.start .WithinContent) ⟨.inr (.inl rfl), isBoundary_le (hlt _ h3), (fun h => by cases h),
        (fun h => by cases h), (fun h => by cases h)⟩ e1 e2 ?_
    by_cases he : s.tokenType = .EOS
    · exact .inl ⟨he, by omega⟩
    · have h5 := (scan_step e1).mu_lt he
      have h6 := mu_le (e.cfg d true) (.new node.start .WithinContent)
      have e1 : (e.cfg d true).src.length = d.text.length := rfl
      have e2 : (Sc.new node.start .WithinContent).pos = node.start := rfl
      have e3 : (parse_done h h3).opn = (parse_done h h3).opn := rfl
      right
      show mu (e.cfg d true) s + 1 < _
      omega

/-- ASCII texts can be read. -/
theorem smooth_of_ascii (ha : isAscii x.doc.text) {p : Sc} (hb : BInv (x.env.cfg x.doc true) p) : x.Smooth p := by
  have rd : ∀ a b o, ¬ Unreadable x.doc.text a b o := by
    rintro a b o (⟨c, h1, h2⟩ | ⟨_, k, c, _, _, h1, h2, _⟩) <;>
    · have := ha c (List.mem_of_getElem? h1)
      omega
  intro n
  induction n generalizing p with
  | zero => exact ⟨p, rfl, fun _ _ _ => rd _ _ _⟩
  | succ n ih =>
    obtain ⟨s1, h1, h2, _⟩ := scan_total (c := x.env.cfg x.doc true) (clean_of_ascii ha) hb
    unfold scanN
    rw [h1]
    exact ih h2

end Html
