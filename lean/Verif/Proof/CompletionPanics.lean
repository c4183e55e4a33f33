import Verif.Proof.CompletionTotal
import Verif.Proof.CompletionTags

/-! # When completion panics -/

namespace Html
open Spec

theorem wordStart_ascii {cps : List Nat} {src : Str} (hu : Utf8 cps src) {lo o a : Nat}
    (h : wordStart src lo o = .ok a) : ∀ i c, a ≤ i → i < o → src[i]? = some c → c < 128 := by
  induction o with
  | zero => omega
  | succ o ih =>
    rw [wordStart] at h
    split at h
    · obtain ⟨c, h2, h⟩ := bind_ok h
      obtain ⟨b, g1, rfl, g3⟩ := slice_one hu h2
      split at h
      · cases h; omega
      · intro i c h3 h4 h5
        rcases Nat.lt_or_ge i o with h6 | h6
        · exact ih h i c h3 h6 h5
        · have : i = o := by omega
          subst this
          rw [g1] at h5; cases h5
          exact g3
    · cases h; omega

theorem wordEnd_ascii {cps : List Nat} {src : Str} (hu : Utf8 cps src) {f o b : Nat}
    (h : wordEnd src f o = .ok b) : ∀ i c, o ≤ i → i < b → src[i]? = some c → c < 128 := by
  induction f generalizing o with
  | zero => rw [wordEnd] at h; cases h; omega
  | succ f ih =>
    rw [wordEnd] at h
    obtain ⟨c, h2, h⟩ := bind_ok h
    obtain ⟨y, g1, rfl, g3⟩ := slice_one hu h2
    split at h
    · cases h; omega
    · intro i c h3 h4 h5
      rcases Nat.lt_or_ge o i with h6 | h6
      · exact ih h i c h6 h4 h5
      · have : i = o := by omega
        subst this
        rw [g1] at h5; cases h5
        exact g3

theorem blank_lt {b : Nat} (h : BlankByte b) : b < 128 := by unfold BlankByte at h; omega

/-- A value is read only if it is readable. -/
theorem CompCtx.readable {x : CompCtx} {cps : List Nat} (hu : Utf8 cps x.doc.text) {a b : Nat} (h1 : a < x.offset)
    (h2 : x.offset ≤ b) (h3 : b ≤ x.doc.text.length) {v : Range × Str × Bool} (h : x.valueRange a b = .ok v) :
    ¬ Unreadable x.doc.text a b x.offset := by
  unfold CompCtx.valueRange at h
  obtain ⟨q, hq, h⟩ := bind_ok h
  unfold CompCtx.inQuotes at hq
  rw [if_pos ⟨h1, h2⟩] at hq
  obtain ⟨c, e7, e6⟩ := bind_ok hq
  cases e6
  obtain ⟨z, z1, rfl, z3⟩ := slice_one hu e7
  rintro (⟨c, c1, c2⟩ | ⟨c1, k, c, k1, k2, k3, k4, k5⟩)
  · rw [z1] at c1; cases c1; omega
  · have hz : z = 34 ∨ z = 39 := by
      rw [z1] at c1
      simpa using c1
    rw [if_pos (isQuote_one.2 hz)] at h
    simp only at h
    obtain ⟨l, w1, h⟩ := bind_ok h
    obtain ⟨r, w2, h⟩ := bind_ok h
    rcases Nat.lt_or_ge k x.offset with hk | hk
    · obtain ⟨s1, s2, s3, s4⟩ := wordStart_spec hu (by omega) w1
      rcases Nat.lt_or_ge k l with hl | hl
      · rcases s4 with s4 | ⟨y, s4, s5⟩
        · omega
        · have := blank_lt s5
          rcases Nat.lt_or_ge k (l - 1) with h6 | h6
          · exact k5 (l - 1) y (.inl ⟨h6, by omega⟩) s4 s5
          · rw [show l - 1 = k by omega, k3] at s4
            cases s4; omega
      · have := wordStart_ascii hu w1 k c hl hk k3
        omega
    · obtain ⟨s1, s2, s3, s4⟩ := wordEnd_spec hu w2
      rcases Nat.lt_or_ge k r with hr | hr
      · have := wordEnd_ascii hu w2 k c hk hr k3
        omega
      · rcases s4 with s4 | ⟨y, s4, s5⟩
        · have hce : x.contentEnd a b ≤ k := by omega
          unfold CompCtx.contentEnd at hce
          split at hce
          · rename_i hc
            have e1 : getStr x.doc.text a (a + 1) = some [z] := by unfold getStr; rw [e7]; rfl
            have e2 := hc.2.trans e1
            rw [show b = b - 1 + 1 by omega, Nat.add_sub_cancel] at e2
            have := (getStr_one.1 e2).1
            rw [show b - 1 = k by omega, k3] at this
            cases this; omega
          · omega
        · have := blank_lt s5
          rcases Nat.lt_or_ge r k with h6 | h6
          · exact k5 r y (.inr ⟨s1, h6⟩) s4 s5
          · rw [show r = k by omega, k3] at s4
            cases s4; omega

theorem stream_scanN {c : Cfg} {s : Sc} {l : List Tok} (h : Stream c s l) (n : Nat) :
    ∃ s', scanN c n s = .ok s' ∧ (s' = s ∨ s'.tokenType = .EOS ∨ s'.tok ∈ l) := by
  induction n generalizing s l with
  | zero => exact ⟨s, rfl, .inl rfl⟩
  | succ n ih =>
    cases l with
    | nil =>
      obtain ⟨s1, h1, h2⟩ := h.nil
      have hp : c.src.length ≤ s.pos := ((scan_step h1).eos_iff).1 h2
      exact ⟨_, scanN_eos hp, .inr (.inl rfl)⟩
    | cons t l =>
      obtain ⟨s1, h1, _, rfl, h4⟩ := h.cons
      obtain ⟨s', h5, h6⟩ := ih h4
      refine ⟨s', by unfold scanN; rw [h1]; exact h5, .inr ?_⟩
      rcases h6 with rfl | h6 | h6
      · exact .inr (by simp)
      · exact .inl h6
      · exact .inr (List.mem_cons_of_mem _ h6)

/-- Completion panics exactly if the attribute value at the cursor cannot be read. -/
theorem Doc.complete_panics_iff {e : CompEnv} {void : List Str} {d : TextDoc} {cps : List Nat} {position : Pos}
    {roots : List Node} {ts : List Tok} (h : Doc e.uni e.caseSensitive void d.text roots ts) (hu : Utf8 cps d.text)
    (hc : Columns d) (hp : Exact d position)
    (ho : d.offsetAt position ≤ d.text.length → isBoundary d.text (d.offsetAt position) = true) :
    (∃ x, doComplete e d position roots = .error x) ↔
      ∃ t ∈ ts, t.type = .AttributeValue ∧ t.offset < d.offsetAt position ∧ d.offsetAt position ≤ t.stop ∧
        Unreadable d.text t.offset t.stop (d.offsetAt position) := by
  constructor
  · rintro ⟨x, hx⟩
    refine Classical.byContradiction fun hn => ?_
    obtain ⟨r, hr⟩ := complete_total (e := e) hu hc hp ho h.parse (fun m ps hm n => by
      obtain ⟨pre, t, post, g1, g2, g3, g4, _⟩ := h.from_node hm
      obtain ⟨s, h1, h2⟩ := stream_scanN g4 n
      refine ⟨s, h1, fun k1 k2 k3 k4 => ?_⟩
      rcases h2 with rfl | h2 | h2
      · cases k1
      · rw [k1] at h2; cases h2
      · exact hn ⟨s.tok, by rw [g1]; simp only [List.mem_append]; exact .inr h2, k1, k2, k3, k4⟩)
    rw [hr] at hx; cases hx
  · rintro ⟨t, ht, hk, h1, h2, h3⟩
    cases hr : doComplete e d position roots with
    | error x => exact ⟨x, rfl⟩
    | ok r =>
      exfalso
      obtain ⟨pre, post, hts⟩ := List.append_of_mem ht
      have hle := (contiguous_le h.contiguous).2 t ht
      obtain ⟨n, ps, y, s, q, _, _, _, _, _, rfl, _, g7, _⟩ := h.value_context hts (.inl hk) h1 h2 rfl hr
      have hk : s.tokenType = .AttributeValue := hk
      have h1 : s.tokenOffset < d.offsetAt position := h1
      have h2 : d.offsetAt position ≤ s.pos := h2
      have hle2 : s.pos ≤ d.text.length := hle
      unfold CompCtx.onToken at g7
      rw [hk] at g7
      simp only at g7
      unfold CompCtx.onAttributeValue at g7
      rw [if_pos (by unfold CompCtx.touches; simp; omega)] at g7
      obtain ⟨r', e1, g8⟩ := bind_ok g7
      obtain ⟨v, _, _, e2, _⟩ := attrValues_spec e1
      exact CompCtx.readable (x := ⟨e, d, position, d.offsetAt position, n, ps, roots⟩) hu h1 h2 hle2 e2 h3

end Html
