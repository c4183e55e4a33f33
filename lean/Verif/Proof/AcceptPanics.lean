import Verif.Proof.Accept
import Verif.Proof.Encoded
import Verif.Proof.EditPanics

/-! # The text with an accepted end tag is parsed -/

namespace Html
open Spec Props

variable {void : List Str}

/-- The name of an element in a UTF-8 text, and what is around the end of its start tag, is UTF-8. -/
theorem name_enc {u : Uni} {cs : Bool} {y b t : Str} {n : Node} {roots : List Node} {cps : List Nat}
    (hu : Utf8 cps (y ++ 62 :: b)) (h : parse u cs void (y ++ 62 :: b) = .ok roots) (hn : InForest roots n)
    (he : n.startTagEnd = some (y.length + 1)) (ht : n.tag = some t) : Enc t := by
  have hN := (parse_done h hn).name
  rw [he, ht] at hN
  obtain ⟨_, _, _, hel, _⟩ := hN.spec
  obtain ⟨w, _, hat, hle, hbd, hlen⟩ := hN.len t rfl
  simp only [Option.getD_some, parserCfg] at hle hbd hlen hat
  have hpos : 0 < t.length := List.length_pos_iff.2 hel.1
  generalize hj : n.start + 1 + w.length = j at hle hbd hlen
  have hd : (y ++ 62 :: b).drop j = y.drop j ++ 62 :: b := by
    rw [List.drop_append_of_le_length (by omega)]
  have hle2 : j + t.length ≤ y.length := by
    have := firstRunLen_le_close (nameFirst_close u) (nameRest_close u) (y.drop j) b
    rw [← hd] at this
    change elementNameLen u _ ≤ _ at this
    rw [hlen, List.length_drop] at this
    omega
  obtain ⟨z, hz⟩ : ∃ z, (y ++ 62 :: b).drop j = t ++ z := by
    obtain ⟨z, hz⟩ := hat
    have := congrArg (List.drop w.length) hz
    rw [List.drop_drop, hj, List.append_assoc, List.drop_left] at this
    exact ⟨z, this⟩
  obtain ⟨v, hv⟩ : ∃ v, (y ++ 62 :: b)[j + t.length]? = some v := ⟨_, List.getElem?_eq_getElem (by simp; omega)⟩
  have hvc : isCont v = false := by
    refine nameLen_stop (u := u) (r := (y ++ 62 :: b).drop j) (by omega) v ?_
    rw [hlen, List.getElem?_drop, hv]
  obtain ⟨k, _, h1⟩ := utf8_split hu hbd
  have hv' : ((y ++ 62 :: b).drop j)[t.length]? = some v := by rw [List.getElem?_drop, hv]
  obtain ⟨k', h2, _⟩ := utf8_split h1 (isBoundary_of_get hv' hvc)
  rw [hz, List.take_left] at h2
  exact ⟨_, h2⟩

/-- Unless the element is `script` or `style`, the text with its end tag is parsed. -/
theorem accept_parsed {u : Uni} {cs : Bool} {a b t : Str} {n : Node} {roots : List Node} {cps : List Nat}
    (hu : Utf8 cps (a ++ b)) (h : parse u cs void (a ++ b) = .ok roots) (hn : InForest roots n)
    (he : n.startTagEnd = some a.length) (ht : n.tag = some t) (hv : t ∉ void) (ho : Unclosed a.length n)
    (hraw : foldName u cs t ≠ b!"script" ∧ foldName u cs t ≠ b!"style") :
    ∃ roots', parse u cs void (a ++ (b!"</" ++ t ++ b!">") ++ b) = .ok roots' := by
  obtain ⟨y, hy⟩ : ∃ y, a = y ++ [62] := by
    obtain ⟨h1, h2, h3⟩ := (C14_offsets_point_at_brackets _ _ _ _ _ n h hn).2.1 _ he
    obtain ⟨r, hr⟩ := h3
    have := congrArg (·[0]?) hr
    simp only [List.getElem?_drop, Nat.add_zero] at this
    rw [List.getElem?_append_left (by omega)] at this
    have h4 : a.getLast? = some 62 := by rw [List.getLast?_eq_getElem?, this]; rfl
    obtain ⟨a0, rfl⟩ := List.getLast?_eq_some_iff.1 h4
    exact ⟨a0, rfl⟩
  have e : a ++ b = y ++ 62 :: b := by rw [hy]; simp
  have henc : Enc (a ++ (b!"</" ++ t ++ b!">") ++ b) := by
    have h1 : Enc (y ++ 62 :: b) := ⟨cps, e ▸ hu⟩
    obtain ⟨h2, h3⟩ := h1.split (by intro b hb; cases hb; decide)
    have h4 : Enc t := name_enc (e ▸ hu) (e ▸ h) hn (by rw [he, hy]; simp) ht
    rw [hy]
    exact ((h2.append (.ascii (by decide))).append (((Enc.ascii (by decide)).append h4).append (.ascii (by decide)))).append
      (h3.tail (by decide))
  obtain ⟨k, hk⟩ := henc
  obtain ⟨ts, hts, _⟩ := C13_one_node_per_bracket _ _ _ _ _ h
  obtain ⟨r', hr', hb'⟩ := parse_res (u := u) (cs := cs) (void := void) hk
  obtain ⟨⟨s4, p4, hs4, h4, _⟩, _, h5⟩ := accept_walk hu h hn he ht hv ho (fun h => h.1.elim hraw.1 hraw.2) hts hr'
  obtain ⟨q, s2, r, hs2, h2⟩ := h5 hraw
  have n1 : ¬ Broken u cs .WithinContent b := by
    intro hb
    have := (Res.none_iff (u := u) (cs := cs) (pre := a) (y := b) (p := q) (s := s2) (void := void) (r := some r)
      (by simpa [Cfg.behind, parserCfg] using h2) hs2.state hs2.pos rfl).2 hb
    cases this
  have n2 : r' = none ↔ Broken u cs .WithinContent b :=
    Res.none_iff (u := u) (cs := cs) (pre := a ++ (b!"</" ++ t ++ b!">")) (y := b) (p := p4) (s := s4) (void := void)
      (by simpa [Cfg.behind, parserCfg] using h4) hs4.state (by rw [hs4.pos]; simp) rfl
  have n3 := mt (broken_iff (void := void) hk).2 (fun hb => n1 (n2.1 (hb'.2 hb)))
  cases hp : parse u cs void (a ++ (b!"</" ++ t ++ b!">") ++ b) with
  | ok roots' => exact ⟨roots', rfl⟩
  | error e => exact absurd ⟨e, hp⟩ n3

end Html
