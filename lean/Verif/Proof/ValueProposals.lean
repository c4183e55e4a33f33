import Verif.Proof.TagProposals
import Verif.Proof.HoverAnswers

/-! # Proposals of attribute values -/

namespace Html
open Spec

theorem slice_one {cps : List Nat} {src : Str} (hu : Utf8 cps src) {i : Nat} {c : Str}
    (h : sliceStr src i (i + 1) = .ok c) : ∃ b, src[i]? = some b ∧ c = [b] ∧ b < 128 := by
  obtain ⟨h1, h2, h3, h4, h5⟩ := sliceStr_ok h
  have hb : src[i]? = some src[i] := List.getElem?_eq_getElem (by omega)
  refine ⟨src[i], hb, ?_, ?_⟩
  · rw [h5]
    unfold bytesIn
    rw [List.drop_eq_getElem_cons (by simp; omega)]
    simp
  · rcases Nat.lt_or_ge src[i] 128 with h6 | h6
    · exact h6
    · rw [utf8_lead_next hu hb h6 h3] at h4; cases h4

theorem wordStart_spec {cps : List Nat} {src : Str} (hu : Utf8 cps src) {lo o a : Nat} (hl : lo ≤ o)
    (h : wordStart src lo o = .ok a) : lo ≤ a ∧ a ≤ o ∧ (∀ i c, a ≤ i → i < o → src[i]? = some c → ¬ BlankByte c) ∧
      (a = lo ∨ ∃ c, src[a - 1]? = some c ∧ BlankByte c) := by
  induction o with
  | zero =>
    rw [wordStart] at h
    cases h
    exact ⟨hl, by omega, by omega, .inl (by omega)⟩
  | succ o ih =>
    rw [wordStart] at h
    split at h
    · rename_i h1
      obtain ⟨c, h2, h⟩ := bind_ok h
      obtain ⟨b, g1, rfl, g3⟩ := slice_one hu h2
      split at h
      · rename_i hw
        cases h
        exact ⟨hl, Nat.le_refl _, by omega, .inr ⟨b, by simpa using g1, (white_byte g3).1 hw⟩⟩
      · rename_i hw
        obtain ⟨i1, i2, i3, i4⟩ := ih (by omega) h
        refine ⟨i1, by omega, fun i c h3 h4 h5 => ?_, i4⟩
        rcases Nat.lt_or_ge i o with h6 | h6
        · exact i3 i c h3 h6 h5
        · have : i = o := by omega
          subst this
          rw [g1] at h5; cases h5
          exact fun hb => hw ((white_byte g3).2 hb)
    · cases h
      exact ⟨hl, Nat.le_refl _, by omega, .inl (by omega)⟩

theorem wordEnd_spec {cps : List Nat} {src : Str} (hu : Utf8 cps src) {f o b : Nat} (h : wordEnd src f o = .ok b) :
    o ≤ b ∧ b ≤ o + f ∧ (∀ i c, o ≤ i → i < b → src[i]? = some c → ¬ BlankByte c) ∧
      (b = o + f ∨ ∃ c, src[b]? = some c ∧ BlankByte c) := by
  induction f generalizing o with
  | zero =>
    rw [wordEnd] at h
    cases h
    exact ⟨Nat.le_refl _, by omega, by omega, .inl rfl⟩
  | succ f ih =>
    rw [wordEnd] at h
    obtain ⟨c, h2, h⟩ := bind_ok h
    obtain ⟨y, g1, rfl, g3⟩ := slice_one hu h2
    split at h
    · rename_i hw
      cases h
      exact ⟨Nat.le_refl _, by omega, by omega, .inr ⟨y, g1, (white_byte g3).1 hw⟩⟩
    · rename_i hw
      obtain ⟨i1, i2, i3, i4⟩ := ih h
      refine ⟨by omega, by omega, fun i c h3 h4 h5 => ?_, ?_⟩
      · rcases Nat.lt_or_ge o i with h6 | h6
        · exact i3 i c h6 h4 h5
        · have : i = o := by omega
          subst this
          rw [g1] at h5; cases h5
          exact fun hb => hw ((white_byte g3).2 hb)
      · rcases i4 with i4 | i4
        · left; omega
        · exact .inr i4

theorem word_around {cps : List Nat} {src : Str} (hu : Utf8 cps src) {lo hi o a b : Nat} (hl : lo ≤ o)
    (h1 : wordStart src lo o = .ok a) (h2 : wordEnd src (hi - o) o = .ok b) : WordAround src lo hi o a b := by
  obtain ⟨a1, a2, a3, a4⟩ := wordStart_spec hu hl h1
  obtain ⟨b1, b2, b3, b4⟩ := wordEnd_spec hu h2
  refine ⟨a1, a2, b1, by omega, fun i c h3 h4 h5 => ?_, a4, ?_⟩
  · rcases Nat.lt_or_ge i o with h6 | h6
    · exact a3 i c h3 h6 h5
    · exact b3 i c h6 h4 h5
  · rcases b4 with b4 | b4
    · left; omega
    · exact .inr b4

variable {e : CompEnv} {d : TextDoc} {position : Pos} {o : Nat}

theorem attrValues_spec {x : CompCtx} {tag : Option Str} {attr : Str} {start stop : Nat} {r : List CompItem}
    (h : x.attrValues tag attr start stop = .ok r) : ∃ v parts values, x.valueRange start stop = .ok v ∧
      r = parts ++ values ∧
      parts = fromParticipants x.env (tag.getD []) attr v.2.1 (x.replaceRange start stop) ∧
      edits values = (knownValues x.env (tag.getD []) attr).map fun k =>
        (k.name, some ⟨v.1, if v.2.2 = true then b!"\"" ++ k.name ++ b!"\"" else k.name⟩) := by
  unfold CompCtx.attrValues at h
  obtain ⟨v, h1, h⟩ := bind_ok h
  cases h
  refine ⟨v, _, _, h1, rfl, ?_, ?_⟩
  · unfold fromParticipants CompEnv.partName
    cases x.env.caseSensitive <;> rfl
  · unfold knownValues edits
    rw [← active_eq, List.map_flatMap, List.map_flatMap]
    congr 1
    funext p
    simp [CompCtx.valueItem]

theorem lastText_last {k : TT} {src : Str} {p mid : List Tok} {y : Tok} (hy : y.type = k)
    (hm : ∀ z ∈ mid, z.type ≠ k) (q : Option Str) : lastText k src (p ++ y :: mid) q = some (text src y) := by
  rw [lastText_append, lastText, if_pos hy, lastText_none hm]

variable {void : List Str} {roots : List Node} {ts : List Tok} {cps : List Nat}

/-- The last name of an attribute in front of its value. -/
theorem last_name {pre p mid : List Tok} {t0 : Tok} {src : Str} (hp : pre = p ++ t0 :: mid) (hk : t0.type = .StartTagOpen)
    (hl : lastNonWs (pre.map Tok.type) = some .AttributeName ∨
      ∃ q : List Tok × Tok, pre = q.1 ++ [q.2] ∧ q.2.type = .DelimiterAssign ∧ lastNonWs (q.1.map Tok.type) = some .AttributeName) :
    ∃ y ∈ mid, LastName pre y ∧ ∀ q, lastText .AttributeName src mid q = some (text src y) := by
  obtain ⟨p', y, tl, h1, h2, h3, h4⟩ : ∃ p' y tl, pre = p' ++ y :: tl ∧ y.type = .AttributeName ∧
      (∀ z ∈ tl, z.type ≠ .AttributeName) ∧ ∀ z ∈ tl, z.type ≠ .StartTagOpen := by
    rcases hl with hl | ⟨q, rfl, q1, q2⟩
    · obtain ⟨p', y, tl, h1, h2, h3⟩ := lastNonWs_split hl
      exact ⟨p', y, tl, h1, h2, fun z hz => by rw [h3 z hz]; decide, fun z hz => by rw [h3 z hz]; decide⟩
    · obtain ⟨p', y, tl, h1, h2, h3⟩ := lastNonWs_split q2
      refine ⟨p', y, tl ++ [q.2], by rw [h1]; simp, h2, fun z hz => ?_, fun z hz => ?_⟩ <;>
      · rcases List.mem_append.1 hz with hz | hz
        · rw [h3 z hz]; decide
        · rw [List.mem_singleton.1 hz, q1]; decide
  obtain ⟨r, hr⟩ : ∃ r, mid = r ++ y :: tl := by
    rw [hp] at h1
    rcases List.append_eq_append_iff.1 h1 with ⟨a, e1, e2⟩ | ⟨a, e1, e2⟩
    · cases a with
      | nil =>
        simp only [List.nil_append, List.cons.injEq] at e2
        rw [e2.1, h2] at hk; cases hk
      | cons z a =>
        simp only [List.cons_append, List.cons.injEq] at e2
        exact ⟨a, e2.2⟩
    · exfalso
      cases a with
      | nil =>
        simp only [List.nil_append, List.cons.injEq] at e2
        rw [← e2.1, h2] at hk; cases hk
      | cons z a =>
        simp only [List.cons_append, List.cons.injEq] at e2
        exact h4 t0 (by rw [e2.2]; simp) hk
  refine ⟨y, by rw [hr]; simp, ⟨p', tl, h1, h2, h3⟩, fun q => ?_⟩
  rw [hr, lastText_last h2 h3]

theorem Doc.value_context (h : Doc e.uni e.caseSensitive void d.text roots ts) {pre post : List Tok} {t : Tok}
    (hts : ts = pre ++ t :: post) (hk : t.type = .AttributeValue ∨ t.type = .DelimiterAssign) (h1 : t.offset < o)
    (h2 : o ≤ t.stop) (ho : d.offsetAt position = o) {r : List CompItem} (hr : doComplete e d position roots = .ok r) :
    ∃ n ps y s q, InForest roots n ∧ n.start < t.offset ∧ t.stop ≤ n.startTagEnd.getD n.stop ∧ n.start < y.offset ∧
      LastName pre y ∧ s.tok = t ∧ Stream (e.cfg d true) s post ∧
      CompCtx.onToken ⟨e, d, position, o, n, ps, roots⟩ n.tag (text d.text y) s = .ok q ∧ r = q.getD [] := by
  have hg := h.grammar hts
  have hb : lastBracket (pre.map Tok.type) = some .StartTagOpen := by
    rcases hk with hk | hk <;> rw [hk] at hg <;> exact hg.2
  have hname : lastNonWs (pre.map Tok.type) = some .AttributeName ∨
      ∃ q : List Tok × Tok, pre = q.1 ++ [q.2] ∧ q.2.type = .DelimiterAssign ∧
        lastNonWs (q.1.map Tok.type) = some .AttributeName := by
    rcases hk with hk | hk
    · rw [hk] at hg
      right
      have hg1 := hg.1
      rw [List.getLast?_map] at hg1
      cases hl : pre.getLast? with
      | none => rw [hl] at hg1; cases hg1
      | some y =>
        rw [hl] at hg1
        simp only [Option.map_some, Option.some.injEq] at hg1
        obtain ⟨q, hq⟩ := List.getLast?_eq_some_iff.1 hl
        refine ⟨(q, y), hq, hg1, ?_⟩
        have := h.grammar (pre := q) (t := y) (post := t :: post) (by rw [hts, hq]; simp)
        rw [hg1] at this
        exact this.1
    · rw [hk] at hg
      exact .inl hg.1
  have hnl : lastNonWs (pre.map Tok.type) ≠ some .StartTagOpen := by
    rcases hname with hn | ⟨q, rfl, q1, _⟩
    · rw [hn]; simp
    · rw [List.map_append, List.map_singleton, q1, lastNonWs_append]; simp
  obtain ⟨m, ps, p, t0, mid, s, q, g1, g2, g3, g4, g5, g6, g7, g8, g9, rfl, g11, g12, g13, rfl⟩ :=
    h.complete_in_tag hts hb (by rcases hk with hk | hk <;> rw [hk] <;> rfl) h1 h2 ho hr
  obtain ⟨y, y1, y2, y3⟩ := last_name (src := d.text) g5 g6 hname
  rw [y3, ← g9 hnl] at g13
  refine ⟨m, ps, y, s, q, g1, g3, g4, ?_, y2, rfl, g12, g13, rfl⟩
  have hc := h.contiguous
  rw [hts, g5, List.append_assoc] at hc
  obtain ⟨_, _, hc, _⟩ := contiguous_split hc
  have n0 := h.nonempty (t := t0) (by rw [hts, g5]; simp) (.inl g6)
  obtain ⟨_, _, hc⟩ := hc
  have := contiguous_ge hc (t := y) (by simp [y1])
  omega

theorem isQuote_one {b : Nat} : [b].all isQuote = true ↔ b = 34 ∨ b = 39 := by
  simp [isQuote, or_comm]

/-- In a value with quotes. -/
theorem Doc.values_in_quotes (h : Doc e.uni e.caseSensitive void d.text roots ts) (hu : Utf8 cps d.text)
    {pre post : List Tok} {t : Tok} (hts : ts = pre ++ t :: post) (hk : t.type = .AttributeValue)
    (hq : d.text[t.offset]? = some 34 ∨ d.text[t.offset]? = some 39) (h1 : t.offset < o)
    (h2 : o ≤ t.stop) (ho : d.offsetAt position = o) {r : List CompItem} (hr : doComplete e d position roots = .ok r) :
    ∃ n y a b parts values, InForest roots n ∧ n.start < t.offset ∧ t.stop ≤ n.startTagEnd.getD n.stop ∧
      n.start < y.offset ∧ LastName pre y ∧ r = parts ++ values ∧
      parts = fromParticipants e (n.tag.getD []) (text d.text y)
        (if o < contentStop d.text t then bytesIn d.text (t.offset + 1) o else []) ⟨d.posAt t.offset, d.posAt t.stop⟩ ∧
      WordAround d.text (t.offset + 1) (contentStop d.text t) o a b ∧
      edits values = (knownValues e (n.tag.getD []) (text d.text y)).map fun k =>
        (k.name, some ⟨⟨d.posAt a, d.posAt b⟩, k.name⟩) := by
  have hle := (contiguous_le h.contiguous).2 t (by rw [hts]; simp)
  obtain ⟨n, ps, y, s, q, g1, g2, g3, g4, g5, rfl, g6, g7, rfl⟩ := h.value_context hts (.inl hk) h1 h2 ho hr
  have hk : s.tokenType = .AttributeValue := hk
  have h1 : s.tokenOffset < o := h1
  have h2 : o ≤ s.pos := h2
  have hle2 : s.pos ≤ d.text.length := hle
  unfold CompCtx.onToken at g7
  rw [hk] at g7
  simp only at g7
  unfold CompCtx.onAttributeValue at g7
  rw [if_pos (by unfold CompCtx.touches; simp; omega)] at g7
  obtain ⟨r', e1, g8⟩ := bind_ok g7
  cases g8
  obtain ⟨v, parts, values, e2, e3, e4, e5⟩ := attrValues_spec e1
  unfold CompCtx.valueRange at e2
  obtain ⟨b, e6, e2⟩ := bind_ok e2
  unfold CompCtx.inQuotes at e6
  rw [if_pos ⟨h1, h2⟩] at e6
  obtain ⟨c, e7, e6⟩ := bind_ok e6
  cases e6
  obtain ⟨z, z1, rfl, z3⟩ := slice_one hu e7
  have hz : z = 34 ∨ z = 39 := by
    have z1 : d.text[s.tokenOffset]? = some z := z1
    rcases hq with hq | hq
    · have hq : d.text[s.tokenOffset]? = some 34 := hq
      rw [z1] at hq; cases hq; exact .inl rfl
    · have hq : d.text[s.tokenOffset]? = some 39 := hq
      rw [z1] at hq; cases hq; exact .inr rfl
  rw [if_pos (isQuote_one.2 hz)] at e2
  have hcs : CompCtx.contentEnd ⟨e, d, position, o, n, ps, roots⟩ s.tokenOffset s.pos = contentStop d.text s.tok := by
    have z1 : d.text[s.tokenOffset]? = some z := z1
    unfold CompCtx.contentEnd contentStop
    show (if _ ∧ getStr d.text (s.pos - 1) s.pos = getStr d.text s.tokenOffset (s.tokenOffset + 1) then _ else _) =
      if d.text[s.pos - 1]? = d.text[s.tokenOffset]? then s.pos - 1 else s.pos
    have e8 : getStr d.text s.tokenOffset (s.tokenOffset + 1) = some [z] := by
      unfold getStr; rw [e7]; rfl
    rw [e8, z1]
    have e9 : getStr d.text (s.pos - 1) s.pos = some [z] ↔ d.text[s.pos - 1]? = some z := by
      have hp : s.pos = s.pos - 1 + 1 := by omega
      rw [show getStr d.text (s.pos - 1) s.pos = getStr d.text (s.pos - 1) (s.pos - 1 + 1) by rw [← hp]]
      rw [getStr_one]
      constructor
      · exact fun h => h.1
      · exact fun h => ⟨h, isBoundary_of_get h (by simp [isCont]; omega), asciiNext_of_utf8 hu _ z h z3⟩
    by_cases hc : d.text[s.pos - 1]? = some z
    · rw [if_pos hc, if_pos ⟨by omega, e9.2 hc⟩]
    · rw [if_neg hc, if_neg fun hx => hc (e9.1 hx.2)]
  simp only at e2
  rw [hcs] at e2
  obtain ⟨a, w1, e2⟩ := bind_ok e2
  obtain ⟨b, w2, e2⟩ := bind_ok e2
  obtain ⟨pr, w3, e2⟩ := bind_ok e2
  cases e2
  have hw := word_around hu (hi := contentStop d.text s.tok) (by show s.tokenOffset + 1 ≤ o; omega) w1 w2
  refine ⟨n, y, a, b, parts, values, g1, g2, g3, g4, g5, e3, ?_, hw, ?_⟩
  · rw [e4]
    congr 1
    · show pr = _
      split at w3
      · rename_i hc
        rw [if_pos hc.2, (sliceStr_ok w3).2.2.2.2]
        rfl
      · rename_i hc
        cases w3
        rw [if_neg]
        intro h3
        exact hc ⟨by show s.tokenOffset + 1 ≤ o; omega, h3⟩
    · unfold CompCtx.replaceRange
      simp only [Range.mk.injEq, and_true]
      rw [Nat.min_eq_left (Nat.le_of_lt h1)]; exact ⟨rfl, rfl⟩
  · rw [e5]
    unfold CompCtx.replaceRange
    have := hw.le
    simp only [Nat.min_eq_left this]
    rfl

/-- In a value without quotes. -/
theorem Doc.values_unquoted (h : Doc e.uni e.caseSensitive void d.text roots ts) (hu : Utf8 cps d.text)
    {pre post : List Tok} {t : Tok} (hts : ts = pre ++ t :: post) (hk : t.type = .AttributeValue)
    (hq : d.text[t.offset]? ≠ some 34 ∧ d.text[t.offset]? ≠ some 39) (h1 : t.offset < o)
    (h2 : o ≤ t.stop) (ho : d.offsetAt position = o) {r : List CompItem} (hr : doComplete e d position roots = .ok r) :
    ∃ n y parts values, InForest roots n ∧ n.start < t.offset ∧ t.stop ≤ n.startTagEnd.getD n.stop ∧
      n.start < y.offset ∧ LastName pre y ∧ r = parts ++ values ∧
      parts = fromParticipants e (n.tag.getD []) (text d.text y) (bytesIn d.text t.offset o)
        ⟨d.posAt t.offset, d.posAt t.stop⟩ ∧
      edits values = (knownValues e (n.tag.getD []) (text d.text y)).map fun k =>
        (k.name, some ⟨⟨d.posAt t.offset, d.posAt t.stop⟩, b!"\"" ++ k.name ++ b!"\""⟩) := by
  obtain ⟨n, ps, y, s, q, g1, g2, g3, g4, g5, rfl, g6, g7, rfl⟩ := h.value_context hts (.inl hk) h1 h2 ho hr
  have hk : s.tokenType = .AttributeValue := hk
  have h1 : s.tokenOffset < o := h1
  have h2 : o ≤ s.pos := h2
  unfold CompCtx.onToken at g7
  rw [hk] at g7
  simp only at g7
  unfold CompCtx.onAttributeValue at g7
  rw [if_pos (by unfold CompCtx.touches; simp; omega)] at g7
  obtain ⟨r', e1, g8⟩ := bind_ok g7
  cases g8
  obtain ⟨v, parts, values, e2, e3, e4, e5⟩ := attrValues_spec e1
  unfold CompCtx.valueRange at e2
  obtain ⟨b, e6, e2⟩ := bind_ok e2
  unfold CompCtx.inQuotes at e6
  rw [if_pos ⟨h1, h2⟩] at e6
  obtain ⟨c, e7, e6⟩ := bind_ok e6
  cases e6
  obtain ⟨z, z1, rfl, z3⟩ := slice_one hu e7
  have z1 : d.text[s.tokenOffset]? = some z := z1
  have hq : d.text[s.tokenOffset]? ≠ some 34 ∧ d.text[s.tokenOffset]? ≠ some 39 := hq
  rw [if_neg (fun hx => by
    rw [isQuote_one] at hx
    rw [z1] at hq
    rcases hx with rfl | rfl
    · exact hq.1 rfl
    · exact hq.2 rfl)] at e2
  obtain ⟨pr, w3, e2⟩ := bind_ok e2
  cases e2
  have hrg : CompCtx.replaceRange ⟨e, d, position, o, n, ps, roots⟩ s.tokenOffset s.pos =
      ⟨d.posAt s.tokenOffset, d.posAt s.pos⟩ := by
    unfold CompCtx.replaceRange
    simp only [Nat.min_eq_left (Nat.le_of_lt h1)]
  refine ⟨n, y, parts, values, g1, g2, g3, g4, g5, e3, ?_, ?_⟩
  · rw [e4, hrg]
    show fromParticipants e _ _ pr _ = _
    rw [(sliceStr_ok w3).2.2.2.2]
    rfl
  · rw [e5, hrg]
    simp only [if_true]
    rfl

/-- Behind `=`. -/
theorem Doc.values_behind_equals (h : Doc e.uni e.caseSensitive void d.text roots ts)
    {pre post : List Tok} {t : Tok} (hts : ts = pre ++ t :: post) (hk : t.type = .DelimiterAssign)
    (h2 : t.stop = o) (ho : d.offsetAt position = o) {r : List CompItem} (hr : doComplete e d position roots = .ok r) :
    ∃ n y parts values, InForest roots n ∧ n.start < t.offset ∧ t.stop ≤ n.startTagEnd.getD n.stop ∧
      n.start < y.offset ∧ LastName pre y ∧ r = parts ++ values ∧
      parts = fromParticipants e (n.tag.getD []) (text d.text y) []
        ⟨d.posAt o, d.posAt (nameEnd .AttributeValue o post)⟩ ∧
      edits values = (knownValues e (n.tag.getD []) (text d.text y)).map fun k =>
        (k.name, some ⟨⟨d.posAt o, d.posAt (nameEnd .AttributeValue o post)⟩, b!"\"" ++ k.name ++ b!"\""⟩) := by
  have hm : t ∈ ts := by rw [hts]; simp
  have hlen : t.stop = t.offset + 1 := by
    have hle := (contiguous_le h.contiguous).2 t hm
    have hok := h.textOK hm
    unfold TextOK at hok
    rw [hk] at hok
    have := congrArg List.length hok
    simp [Spec.text] at this
    omega
  obtain ⟨n, ps, y, s, q, g1, g2, g3, g4, g5, rfl, g6, g7, rfl⟩ :=
    h.value_context hts (.inr hk) (by omega) (by omega) ho hr
  have hk : s.tokenType = .DelimiterAssign := hk
  have h2 : s.pos = o := h2
  unfold CompCtx.onToken at g7
  rw [hk] at g7
  simp only at g7
  unfold CompCtx.onDelimiterAssign at g7
  rw [if_pos h2] at g7
  obtain ⟨stop, e0, g7⟩ := bind_ok g7
  obtain ⟨r', e1, g8⟩ := bind_ok g7
  cases g8
  have e9 := nextEnd_spec g6 (by decide) e0
  rw [if_pos h2] at e9
  have e4 : stop = nameEnd .AttributeValue o post := by
    rw [e9]
    cases post <;> rfl
  subst e4
  obtain ⟨v, parts, values, e2, e3, e4, e5⟩ := attrValues_spec e1
  unfold CompCtx.valueRange at e2
  obtain ⟨b, e6, e2⟩ := bind_ok e2
  unfold CompCtx.inQuotes at e6
  rw [if_neg (by simp)] at e6
  cases e6
  rw [if_neg (by simp)] at e2
  obtain ⟨pr, w3, e2⟩ := bind_ok e2
  cases e2
  have hrg : CompCtx.replaceRange ⟨e, d, position, o, n, ps, roots⟩ o (nameEnd .AttributeValue o post) =
      ⟨d.posAt o, d.posAt (nameEnd .AttributeValue o post)⟩ := by
    unfold CompCtx.replaceRange
    simp only [Nat.min_self]
  refine ⟨n, y, parts, values, g1, g2, g3, g4, g5, e3, ?_, ?_⟩
  · rw [e4, hrg]
    show fromParticipants e _ _ pr _ = _
    rw [(sliceStr_ok w3).2.2.2.2]
    simp [bytesIn]
  · rw [e5, hrg]
    simp only [if_true]

/-! ### Content -/

theorem entities_spec {x : CompCtx} (hu : Utf8 cps x.doc.text) (hc : Columns x.doc) (hp : Exact x.doc x.position)
    (ho : x.doc.offsetAt x.position = x.offset) (hl : x.offset ≤ x.doc.text.length) :
    ∃ r, x.entityItems = .ok r ∧
      (∀ k, RefStart x.doc.text x.offset k → edits r =
        (x.env.entities.filter fun a => a.1.getLast? == some 59).map fun a =>
          (b!"&" ++ a.1, some ⟨⟨x.doc.posAt k, x.position⟩, b!"&" ++ a.1⟩)) ∧
      ((∀ k, ¬ RefStart x.doc.text x.offset k) → r = []) := by
  obtain ⟨l1, l2, l3⟩ := lettersBefore_spec x.doc.text x.offset
  obtain ⟨c1, c2⟩ := lettersBefore_column hc hp
  rw [ho] at c1 c2
  generalize hn : lettersBefore x.doc.text x.offset = n at *
  unfold CompCtx.entityItems
  simp only [hn]
  have hs : subU x.position.character n = .ok (x.position.character - n) := by
    unfold subU; rw [if_pos c1]
  rw [hs]
  simp only [bind, Except.bind]
  have href : ∀ k, RefStart x.doc.text x.offset k → k + 1 = x.offset - n ∧ 1 ≤ x.offset - n := by
    rintro k ⟨r1, r2, r3⟩
    have h1 : ¬ k + 1 < x.offset - n := by
      intro h1
      have := l3 (by omega)
      obtain ⟨b, hb, hal⟩ := r3 (x.offset - n - 1) (by omega) (by omega)
      have := isLetterOrDigit_iff.2 ⟨b, hb, hal⟩
      simp_all
    have h2 : ¬ x.offset - n ≤ k := by
      intro h2
      obtain ⟨b, hb, hal⟩ := isLetterOrDigit_iff.1 (l2 k h2 r1)
      rw [r2] at hb; cases hb
      unfold alnum at hal
      omega
    omega
  by_cases hamp : 1 ≤ x.offset - n ∧ x.doc.text[x.offset - n - 1]? = some 38
  · obtain ⟨a1, a2⟩ := hamp
    have hg : getStr x.doc.text (x.offset - n - 1) (x.offset - n) = some b!"&" := by
      have he : x.offset - n = x.offset - n - 1 + 1 := by omega
      rw [show getStr x.doc.text (x.offset - n - 1) (x.offset - n) =
        getStr x.doc.text (x.offset - n - 1) (x.offset - n - 1 + 1) by rw [← he]]
      exact getStr_one.2 ⟨a2, isBoundary_of_get a2 (by decide), asciiNext_of_utf8 hu _ 38 a2 (by decide)⟩
    rw [if_pos ⟨a1, hg⟩]
    have hcol := hc (x.offset - n - 1) 38 a2 (by decide) (by decide) (by decide)
    rw [show x.offset - n - 1 + 1 = x.offset - n by omega, c2] at hcol
    have e1 := congrArg Pos.line hcol
    have e2 := congrArg Pos.character hcol
    simp only at e1 e2
    have hs' : subU (x.position.character - n) 1 = .ok (x.position.character - n - 1) := by
      unfold subU; rw [if_pos (by omega)]
    rw [hs']
    refine ⟨_, rfl, fun k hk => ?_, fun hk => absurd ?_ (hk (x.offset - n - 1))⟩
    · obtain ⟨k1, k2⟩ := href k hk
      have hkk : k = x.offset - n - 1 := by omega
      subst hkk
      have : (⟨x.position.line, x.position.character - n - 1⟩ : Pos) = x.doc.posAt (x.offset - n - 1) := by
        rw [e1, show x.position.character - n - 1 = (x.doc.posAt (x.offset - n - 1)).character by omega]
      rw [this]
      simp [edits, entityItem]
    · exact ⟨by omega, a2, fun i i1 i2 => isLetterOrDigit_iff.1 (l2 i (by omega) i2)⟩
  · rw [if_neg]
    · refine ⟨_, rfl, fun k hk => absurd ?_ hamp, fun _ => rfl⟩
      obtain ⟨k1, k2⟩ := href k hk
      have hkk : k = x.offset - n - 1 := by omega
      subst hkk
      exact ⟨k2, hk.2.1⟩
    · rintro ⟨a1, a2⟩
      have he : x.offset - n = x.offset - n - 1 + 1 := by omega
      rw [show getStr x.doc.text (x.offset - n - 1) (x.offset - n) =
        getStr x.doc.text (x.offset - n - 1) (x.offset - n - 1 + 1) by rw [← he]] at a2
      exact hamp ⟨a1, (getStr_one.1 a2).1⟩

/-- In content. -/
theorem Doc.in_content (h : Doc e.uni e.caseSensitive void d.text roots ts) (hu : Utf8 cps d.text)
    (hcol : Columns d) (hp : Exact d position) {n : Node} (hn : InForest roots n) (hno : n.start < o)
    {pre post : List Tok} {t : Tok} (hts : ts = pre ++ t :: post) (hk : t.type = .Content)
    (h1 : t.offset < o) (h2 : o ≤ t.stop) (ho : d.offsetAt position = o) {r : List CompItem}
    (hr : doComplete e d position roots = .ok r) :
    ∃ ents, r = e.participants.flatMap (·.onContent) ++ ents ∧
      (∀ k, RefStart d.text o k → edits ents = (e.entities.filter fun a => a.1.getLast? == some 59).map fun a =>
          (b!"&" ++ a.1, some ⟨⟨d.posAt k, position⟩, b!"&" ++ a.1⟩)) ∧
      ((∀ k, ¬ RefStart d.text o k) → ents = []) := by
  have hle := (contiguous_le h.contiguous).2 t (by rw [hts]; simp)
  cases hf : findNodeBefore roots o with
  | none =>
    have := (Props.C23_none_iff _ _ _ _ _ _ h.parse).1 hf n hn
    omega
  | some m =>
    obtain ⟨m, ps⟩ := m
    obtain ⟨p, l, t0, l', s, q, c1, c2, c3, c4, rfl, c6, c7, c8, rfl⟩ := h.complete_at hf hts h1 h2 ho hr
    have hk : s.tokenType = .Content := hk
    have h2 : o ≤ s.pos := h2
    have hle : s.pos ≤ d.text.length := hle
    unfold CompCtx.onToken at c8
    rw [hk] at c8
    simp only at c8
    unfold CompCtx.onContent at c8
    rw [if_pos h2] at c8
    obtain ⟨q', e1, c8⟩ := bind_ok c8
    cases c8
    unfold CompCtx.insideContent at e1
    obtain ⟨r', e2, e1⟩ := bind_ok e1
    cases e1
    obtain ⟨r'', e3, e4, e5⟩ := entities_spec (x := ⟨e, d, position, o, m, ps, roots⟩) hu hcol hp ho
      (by show o ≤ d.text.length; omega)
    rw [e2] at e3
    cases e3
    exact ⟨r', rfl, e4, e5⟩

/-! ### Behind `>` -/

/-- Behind the `>` of a start tag. -/
theorem Doc.behind_close (h : Doc e.uni e.caseSensitive void d.text roots ts)
    {pre post : List Tok} {t : Tok} (hts : ts = pre ++ t :: post) (hk : t.type = .StartTagClose)
    (h1 : t.offset < t.stop) (h2 : t.stop = o) (ho : d.offsetAt position = o) {r : List CompItem}
    (hr : doComplete e d position roots = .ok r) :
    ∃ n, InForest roots n ∧ n.startTagEnd = some o ∧
      (∀ tag, n.tag = some tag → edits r = if e.settings.any (·.hideAutoComplete) = true ∨ tag ∈ e.void then []
        else [(b!"</" ++ tag ++ b!">", some ⟨⟨d.posAt o, d.posAt o⟩, b!"$0</" ++ tag ++ b!">"⟩)]) ∧
      (n.tag = none → r = []) := by
  have hm : t ∈ ts := by rw [hts]; simp
  obtain ⟨m, hm1, hm2, _⟩ := h.close_node hm hk h1
  rw [h2] at hm2
  obtain ⟨d1, d2, _⟩ := (Props.C14_offsets_point_at_brackets _ _ _ _ _ m h.parse hm1).2.1 o hm2
  obtain ⟨ps, hf⟩ := h.locate hm1 d1 d2 (fun k hk => by
    have := (h.inner_gt hm1 hk).1
    rwa [hm2] at this)
  obtain ⟨p, l, t0, l', s, q, c1, c2, c3, c4, rfl, c6, c7, c8, rfl⟩ :=
    h.complete_at hf hts (by omega) (by omega) ho hr
  have hk : s.tokenType = .StartTagClose := hk
  have h2 : s.pos = o := h2
  have htag : m.tag = lastText .StartTag d.text l none := by
    cases l with
    | nil =>
      simp only [List.nil_append, List.cons.injEq] at c2
      rw [← c2.1] at c3
      have c3 : s.tokenType = .StartTagOpen := c3
      rw [hk] at c3; cases c3
    | cons y mid =>
      simp only [List.cons_append, List.cons.injEq] at c2
      obtain ⟨rfl, _⟩ := c2
      rw [lastText, if_neg (by rw [c3]; decide)]
      obtain ⟨a, b, hab, ha, hb'⟩ := split_first .StartTagOpen post
      have hts0 : ts = p ++ y :: (mid ++ s.tok :: post) := by rw [hts, c1]; simp
      have hmid : ∀ z ∈ mid, z.type ≠ .StartTagOpen := by
        intro z hz hzk
        have hzm : z ∈ ts := by rw [hts0]; simp [hz]
        obtain ⟨k, hk1, hk2⟩ := h.tok_node hzm hzk
        have hc := h.contiguous
        rw [hts0] at hc
        obtain ⟨_, _, hc, _⟩ := contiguous_split hc
        have n0 := h.nonempty (t := y) (by rw [hts0]; simp) (.inl c3)
        have nz := h.nonempty hzm (.inl hzk)
        obtain ⟨_, _, hc⟩ := hc
        obtain ⟨_, hc, hc', _⟩ := contiguous_split hc
        have hz1 := contiguous_ge hc hz
        have hz2 := (contiguous_le hc).2 z hz
        have hc'' := hc'.1
        have hs : s.tok.offset < s.tok.stop := h1
        have hs' : s.tok.stop = o := h2
        obtain ⟨_, w2, w3, _⟩ := Props.C23_last_node_before _ _ _ _ _ _ _ _ h.parse hf
        rcases w3 k hk1 (by omega) with rfl | hw | hw | hw
        · omega
        · have := (h.inner_gt hk1 (chain_below w2 hw)).2
          omega
        · have := (parse_done h.parse hk1).lt
          omega
        · have := (h.inner_gt hm1 hw).1
          rw [hm2] at this
          simp at this
          omega
      have htag := h.tag_eq (pre := p) (t0 := y) (mid := mid ++ s.tok :: a) (post := b) (by rw [hts0, hab]; simp) c3 hm1
        c4.symm (by
          intro z hz he
          rcases List.mem_append.1 hz with hz | hz
          · exact hmid z hz he
          · rcases List.mem_cons.1 hz with rfl | hz
            · have he : s.tokenType = .StartTagOpen := he
              rw [hk] at he; cases he
            · exact ha z hz he) hb'
      rw [htag, lastText_append]
      refine lastText_none fun z hz hze => ?_
      rcases List.mem_cons.1 hz with rfl | hz
      · have hze : s.tokenType = .StartTag := hze
        rw [hk] at hze; cases hze
      · obtain ⟨a1, a2, hs⟩ := List.append_of_mem hz
        have hts1 : ts = (pre ++ s.tok :: a1) ++ z :: (a2 ++ b) := by
          rw [hts, hab, hs]; simp
        have hg := h.grammar hts1
        rw [hze] at hg
        obtain ⟨p', x, w, e1, e2, e3⟩ := lastNonWs_split hg
        rw [List.append_eq_append_iff] at e1
        have hx : x ∈ s.tok :: a1 ∨ s.tok ∈ w := by
          rcases e1 with ⟨v, v1, v2⟩ | ⟨v, v1, v2⟩
          · left; rw [v2]; simp
          · cases v with
            | nil => left; simp only [List.nil_append] at v2; rw [← v2]; simp
            | cons v0 v =>
              simp only [List.cons_append, List.cons.injEq] at v2
              right; rw [v2.2]; simp
        rcases hx with hx | hx
        · rcases List.mem_cons.1 hx with rfl | hx
          · have e2 : s.tokenType = .StartTagOpen := e2
            rw [hk] at e2; cases e2
          · exact ha x (by rw [hs]; simp [hx]) e2
        · have e3 : s.tokenType = .Whitespace := e3 _ hx
          rw [hk] at e3; cases e3
  unfold CompCtx.onToken at c8
  rw [hk] at c8
  simp only at c8
  unfold CompCtx.onStartTagClose at c8
  rw [if_pos (by show o ≤ s.pos; omega), ← htag] at c8
  cases c8
  refine ⟨m, hm1, hm2, fun tag ht => ?_, fun ht => by rw [ht]; rfl⟩
  rw [ht, h2]
  simp only [Option.map_some, Option.getD_some]
  unfold CompCtx.autoClose
  simp only
  by_cases hh : e.settings.any (·.hideAutoComplete) = true
  · rw [if_pos hh, if_pos (.inl hh)]; rfl
  · rw [if_neg hh]
    by_cases hv : tag ∈ e.void
    · rw [if_pos (by simpa [isVoidElement] using hv), if_pos (.inr hv)]; rfl
    · rw [if_neg (by simpa [isVoidElement] using hv), if_neg (by rintro (h | h) <;> contradiction)]
      rfl

end Html
