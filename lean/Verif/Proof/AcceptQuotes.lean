import Verif.Proof.AcceptName
import Verif.Props.AcceptValue

/-! # Accepting the quotes behind `=` -/

namespace Html
open Spec Props

variable {e : CompEnv} {d : TextDoc} {position : Pos} {void : List Str} {roots : List Node} {ts : List Tok}

/-- Directly behind the `=` of an attribute. -/
theorem quote_in_tag (h : Doc e.uni e.caseSensitive void d.text roots ts) {p post : List Tok} {t : Tok}
    (hts : ts = p ++ t :: post) (hk : t.type = .DelimiterAssign) (ho : t.stop = d.offsetAt position) (hne : t.offset < t.stop) :
    doQuoteComplete e d position roots =
      .ok (if ts.any (fun t => t.type = .AttributeName ∧ t.stop + 1 = d.offsetAt position ∧
        d.text[t.stop]? = some 61 ∧ noValue d.text (d.offsetAt position) = true) then e.quotes.pair else none) := by
  refine quote_eq_from h fun n ps hf x hx hs hlt => ?_
  have hg := h.grammar hts
  rw [hk] at hg
  obtain ⟨m, ps', p', t0, mid, g1, g2, g3, g4, g5, g6, g7, g8, g9⟩ :=
    h.in_tag (o := d.offsetAt position) hts hg.2 (by rw [hk]; rfl) (by omega) (by omega)
  rw [hf] at g1
  cases g1
  have hts' : ts = p' ++ t0 :: (mid ++ t :: post) := by rw [hts, g3]; simp
  have h0 := h.nonempty (t := t0) (by rw [hts']; simp) (.inl g4)
  by_cases hxt : x = t0
  · rw [hxt]; exact h0
  · have hc := h.contiguous
    have hxl : x.offset ≤ x.stop := by
      obtain ⟨a, b, e⟩ := List.append_of_mem hx
      rw [e] at hc
      obtain ⟨_, _, hc, _⟩ := contiguous_split hc
      exact hc.2.1
    rw [hts'] at hx
    have hin : x ∈ mid := by
      rcases List.mem_append.1 hx with hx | hx
      · exfalso
        rw [hts'] at hc
        obtain ⟨q, hc1, hc, _⟩ := contiguous_split hc
        have := (contiguous_le hc1).2 x hx
        have := hc.1
        omega
      · rcases List.mem_cons.1 hx with rfl | hx
        · exact absurd rfl hxt
        · rcases List.mem_append.1 hx with hx | hx
          · exact hx
          · exfalso
            rw [hts] at hc
            obtain ⟨q, _, hc, _⟩ := contiguous_split hc
            rcases List.mem_cons.1 hx with rfl | hx
            · omega
            · have := contiguous_ge hc.2.2 hx
              omega
    have := g8 x hin
    rcases C03_only_pseudo_close_empty _ _ _ h.tokens x (by rw [hts']; simp [hin]) with h1 | ⟨_, h1 | h1, _⟩
    · exact h1
    · rw [h1] at this; cases this
    · rw [h1] at this; cases this

/-- A name that awaits a value. -/
theorem quote_awaits (h : Doc e.uni e.caseSensitive void d.text roots ts) {t : Tok} (ht : t ∈ ts)
    (ha : AwaitsValue d.text t (d.offsetAt position)) : doQuoteComplete e d position roots = .ok (quotesText e.settings) := by
  obtain ⟨a1, a2, a3, a4⟩ := ha
  obtain ⟨p, s, post, s2, g1, g2, g3, g4, -⟩ := h.assign_tok ht a1 a3
  rw [quote_in_tag h (p := p ++ [t]) (t := s.tok) (post := post) (by rw [g1]; simp) g2 (by show s.pos = _; omega)
    (by show s.tokenOffset < s.pos; omega), if_pos, quotes_pair]
  exact List.any_eq_true.2 ⟨t, ht, by simp only [decide_eq_true_eq]; exact ⟨a1, a2, a3, noValue_iff.2 a4⟩⟩

theorem value_start_ink {tag : TagHole} {v : Str} (hl : (tag.fill v).Legal) (hne : v ≠ []) :
    ∃ b r, v = b :: r ∧ ¬ (Space b ∨ b = 62) := by
  obtain ⟨⟨k1, _⟩, _⟩ := hl
  obtain ⟨-, -, -, -, hv⟩ := k1 ⟨tag.gap, tag.key, some v⟩ (by simp [TagHole.fill])
  rcases hv v rfl with ⟨q, w, hq, -, rfl⟩ | ⟨-, hall⟩ | h0
  · exact ⟨q, w ++ [q], by simp, by rcases hq with rfl | rfl <;> simp [Space]⟩
  · cases v with
    | nil => exact absurd rfl hne
    | cons b r =>
      have := (hall b (by simp)).2
      refine ⟨b, r, rfl, ?_⟩
      unfold Space
      omega
  · exact absurd h0 hne

/-- Quotes are offered directly behind the `=` of an attribute exactly if there is no value. -/
theorem quote_tag {pre v y : Str} {tag : TagHole} (hpre : EndsInContent e.uni e.caseSensitive pre) (hn : LegalName tag.name)
    (hl : (tag.fill v).Legal) (ht : d.text = pre ++ (tag.fill v).print ++ (b!">" ++ y))
    (h : parse e.uni e.caseSensitive void d.text = .ok roots) (ho : d.offsetAt position = pre.length + tag.front.length) :
    doQuoteComplete e d position roots = .ok (if v = [] then quotesText e.settings else none) := by
  obtain ⟨ts, hts, _⟩ := C13_one_node_per_bracket _ _ _ _ _ h
  have D : Doc e.uni e.caseSensitive void d.text roots ts := ⟨h, hts⟩
  have D' := D
  rw [ht] at D'
  obtain ⟨n, p, ky, eq, post, n1, n2, n3, g1, g2, g3, g4, g5, -, -⟩ := value_setup_any hpre hn hl D'
  have hsplit : d.text = (pre ++ tag.front) ++ (v ++ (printAttrs tag.after ++ tag.back ++ (b!">" ++ y))) := by
    rw [ht, TagHole.print_fill]; simp
  have hok := D.textOK (t := eq) (by rw [g1]; simp)
  unfold TextOK at hok
  rw [g4] at hok
  have hlen := (contiguous_le D.contiguous).2 eq (by rw [g1]; simp)
  have hl1 := text_len hlen
  have h1 : text d.text eq = b!"=" := hok
  rw [h1] at hl1
  have hl2 : eq.stop - eq.offset = 1 := hl1.symm
  have hb : d.text[d.offsetAt position]? = (v ++ (printAttrs tag.after ++ tag.back ++ (b!">" ++ y)))[0]? := by
    rw [hsplit, ho, List.getElem?_append_right (by simp)]
    simp
  have hky : ky.stop = eq.offset := by
    have hc := D.contiguous
    rw [g1] at hc
    obtain ⟨_, _, ⟨_, _, e1, _⟩, _⟩ := contiguous_split hc
    exact e1.symm
  have heq : d.text[eq.offset]? = some 61 := by
    obtain ⟨r, hr⟩ := text_at (t := eq) (by omega) hlen
    rw [h1] at hr
    have := congrArg (·[0]?) hr
    simpa [List.getElem?_drop] using this
  by_cases hv : v = []
  · rw [if_pos hv]
    refine quote_awaits D (t := ky) (by rw [g1]; simp) ⟨g2, by omega, by rw [hky]; exact heq, ?_⟩
    intro b hb'
    obtain ⟨b1, r1, e1, e2⟩ := value_sep (y := y) hl
    rw [hb, hv, List.nil_append, e1] at hb'
    cases hb'
    exact e2
  · rw [if_neg hv, quote_in_tag D (p := p ++ [ky]) (t := eq) (post := post) (by rw [g1]; simp) g4 (by omega) (by omega), if_neg]
    intro ha
    obtain ⟨t, _, hp⟩ := List.any_eq_true.1 ha
    simp only [decide_eq_true_eq] at hp
    obtain ⟨b, r, rfl, hbb⟩ := value_start_ink hl hv
    exact hbb (noValue_iff.1 hp.2.2.2 b (by rw [hb]; rfl))

theorem quotes_shape {c : Option CompletionConfig} {s : Str} (h : quotesText c = some s) :
    ∃ q, (q = 34 ∨ q = 39) ∧ s = [q] ++ b!"$1" ++ [q] := by
  unfold quotesText at h
  split at h
  · cases h; exact ⟨34, .inl rfl, rfl⟩
  · split at h
    · cases h; exact ⟨34, .inl rfl, rfl⟩
    · cases h; exact ⟨39, .inr rfl, rfl⟩
    · cases h

theorem quote_not_behind {b : Nat} {o : Nat} (ho : d.offsetAt position = o + 1) (hb : d.text[o]? = some b) (h61 : b ≠ 61) :
    doQuoteComplete e d position roots = .ok none := by
  unfold doQuoteComplete
  simp only
  rw [ho, if_neg (by omega), if_pos]
  intro hg
  have := (getStr_one.1 hg).1
  rw [Nat.add_sub_cancel, hb] at this
  exact h61 (Option.some.inj this)

end Html
