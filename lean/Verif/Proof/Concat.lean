import Verif.Proof.Ahead
import Verif.Proof.Restart
import Verif.Proof.Completion
import Verif.Proof.Hover
import Verif.Proof.ParseTotal

/-! # The tokens of a text that is continued behind a closing bracket -/

namespace Html
open Spec

variable {x : Str} {c c' : Cfg} {s : Sc}

theorem Run.keeps (A : Agree x c c') {s s2 : Sc} {ts i : List Tok} {t : Tok} (h : Run c s ts s2) (hs : s.pos ≤ x.length)
    (hts : ts = i ++ [t]) (h1 : t.stop = x.length + 1) (h2 : isEndTT t.type = true) (h3 : t.offset < t.stop) :
    Run c' s ts s2 := by
  induction h generalizing i with
  | nil s => simp at hts
  | @cons s s1 s2 ts h hne hr ih =>
    cases i with
    | nil =>
      obtain ⟨e1, e2⟩ := List.cons.inj hts
      subst e2
      cases hr
      refine .cons (scan_keeps A hs s1 h (.inr ⟨?_, ?_⟩)) hne (.nil _)
      · rw [← h1, ← e1]; rfl
      · rw [← h2, ← e1]; rfl
    | cons t0 i =>
      obtain ⟨e1, e2⟩ := List.cons.inj hts
      have hm : t ∈ ts := by rw [e2]; simp
      have := (hr.ge hm).1
      have hs1 : s1.pos ≤ x.length := by omega
      exact .cons (scan_keeps A hs s1 h (.inl hs1)) hne (ih hs1 e2)

theorem Run.tokensF {s s2 : Sc} {ts : List Tok} (h : Run c s ts s2) (f : Nat) :
    tokensF c (ts.length + f) s = (tokensF c f s2).map (ts ++ ·) := by
  induction h with
  | nil s =>
    simp only [List.length_nil, Nat.zero_add, List.nil_append]
    cases Html.tokensF c f s <;> rfl
  | @cons s s1 s2 ts h hne hr ih =>
    rw [List.length_cons, show ts.length + 1 + f = (ts.length + f) + 1 by omega, Html.tokensF, h]
    change (if s1.tokenType = .EOS then _ else _) = _
    rw [if_neg hne, ih]
    cases Html.tokensF c f s2 <;> rfl

theorem tokensF_tokens {f : Nat} (hf : mu c s < f) : tokensF c f s = tokens c s := by
  have h1 := mu_le c s
  unfold tokens
  rw [← tokensF_fuel hf (2 * (c.src.length - s.pos) + 2), Nat.add_comm f]
  exact tokensF_fuel (by omega) f

/-- The state in front of the last token of a run. -/
theorem Run.last {s s2 : Sc} {i : List Tok} {t : Tok} (h : Run c s (i ++ [t]) s2) : s2.tok = t := by
  obtain ⟨s1, _, h⟩ := h.split
  cases h with
  | cons h hne hr => cases hr; rfl

theorem Run.final {s s2 : Sc} {i : List Tok} {t : Tok} (h : Run c s (i ++ [t]) s2) : ∃ s1, scan c s1 = .ok s2 ∧
    s2.tokenType ≠ .EOS := by
  obtain ⟨s1, _, h⟩ := h.split
  cases h with
  | cons h1 hne hr => cases hr; exact ⟨_, h1, hne⟩

/-- Outside start tags. -/
theorem Step.endState {s s' : Sc} (h : Step c s s') (he : isEndTT s'.tokenType = true) : s'.state.inStart = false := by
  have hx : ∀ a s', StepTag c a s' → a.state = .WithinTag → isEndTT s'.tokenType = true → s'.state.inStart = false := by
    intro a s' h ha he
    cases h with
    | close s1 hp h =>
      rcases afterStartTag_content a with e | e | e <;> simp [fin, adv, e, SS.inStart]
    | unknown s1 hp => simp [fin, isEndTT] at he
    | _ => first | rfl | (simp [fin, adv, isEndTT] at he; done)
  cases h with
  | tag _ h hs h' => exact hx _ _ h' hs he
  | afterNameTag _ h hs hw h0 h' => exact hx _ _ h' rfl he
  | valueTag _ h hs hw hb h0 h1 h' => exact hx _ _ h' rfl he
  | content _ h hs h' => cases h' <;> simp [fin, isEndTT] at he
  | scriptContent _ h hs hl h' => cases h' <;> simp [fin, isEndTT] at he
  | styleContent _ h hs hb h0 h' => cases h' <;> simp [fin, isEndTT] at he
  | endTag _ h hs h' => cases h' <;> first | rfl | (simp [fin, isEndTT] at he; done)
  | _ => first | rfl | (simp [fin, isEndTT] at he; done) | (simp_all [fin, isEndTT, SS.inStart]; done)

theorem hid_of_state {a b : Sc} (h : a.state.inStart = false) : Hid c a b := by
  intro h1
  rcases h1 with h1 | h1 | h1 <;> rw [h1] at h <;> cases h

/-- A scanner at the end of the prefix continues as a new one on the rest. -/
theorem eqv_new {st : SS} (pre : Str) (h1 : s.state = st) (h2 : s.pos = pre.length) (h3 : st.inStart = false) :
    Eqv (c.behind pre) s ((Sc.new 0 st).shift pre.length) :=
  ⟨h1, by simp [h2, Sc.shift, Sc.new], hid_of_state (by rw [h1]; exact h3)⟩

theorem whole_init {cps : List Nat} {x : Str} (h : Utf8 cps (x ++ [62])) : Whole x := by
  have := whole_of_utf8 (a := 0) (e := x.length) (b := 62) h (by simp) (by decide)
  simpa [bytesIn] using this

theorem agree_append (hx : Whole x) (hc : c.src = x ++ [62]) (b : Str) :
    Agree x c { c with src := c.src ++ b } :=
  ⟨⟨[], hc⟩, ⟨b, by simp [hc]⟩, rfl, rfl, rfl, hx⟩

theorem tokens_append (hx : Whole x) (hc : c.src = x ++ [62]) (b : Str) (hs : s.pos ≤ x.length) {i : List Tok} {t : Tok}
    (h : tokens c s = .ok (i ++ [t])) (h1 : t.stop = x.length + 1) (h2 : isEndTT t.type = true) (h3 : t.offset < t.stop) :
    tokens { c with src := c.src ++ b } s =
      (tokens { c with src := b } (.new 0 t.state)).map (fun l => i ++ [t] ++ l.map (Tok.shift c.src.length)) := by
  obtain ⟨s2, hr, hlen⟩ := tokens_run h
  have hk := hr.keeps (agree_append hx hc b) hs rfl h1 h2 h3
  have hl := hr.last
  obtain ⟨s1, hf, _⟩ := hr.final
  have hst : t.state = s2.state := by rw [← hl]; rfl
  have hpos : s2.pos = c.src.length := by
    have : t.stop = s2.pos := by rw [← hl]; rfl
    rw [hc]; simp; omega
  have hin : s2.state.inStart = false := (scan_step hf).endState (by rw [← h2, ← hl]; rfl)
  have hm := hr.length_mu
  have hm2 := mu_le c s
  have hps : s.pos ≤ c.src.length := by rw [hc]; simp; omega
  obtain ⟨G, hG, hG2⟩ : ∃ G, 2 * ((c.src ++ b).length - s.pos) + 2 = (i ++ [t]).length + G ∧ 2 * b.length < G :=
    ⟨2 * ((c.src ++ b).length - s.pos) + 2 - (i ++ [t]).length, by
      simp only [List.length_append] at hm ⊢; omega, by simp only [List.length_append] at hm ⊢; omega⟩
  have e : tokens { c with src := c.src ++ b } s =
      tokensF { c with src := c.src ++ b } ((i ++ [t]).length + G) s := by
    unfold tokens
    rw [hG]
  have hq := eqv_new (c := { c with src := b }) c.src (st := t.state) hst.symm hpos (by rw [hst]; exact hin)
  rw [e, hk.tokensF, show ({ c with src := c.src ++ b } : Cfg) = ({ c with src := b } : Cfg).behind c.src from rfl,
    tokensF_eqv hq, tokensF_shift, tokensF_tokens]
  · cases tokens { c with src := b } (.new 0 t.state) <;> rfl
  · have := mu_le { c with src := b } (.new 0 t.state)
    simp only [Sc.new] at this ⊢
    omega

end Html
