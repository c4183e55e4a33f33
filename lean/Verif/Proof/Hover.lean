import Verif.Proof.Highlight
import Verif.Proof.Selection
import Verif.Proof.LanguageFacts
import Verif.Proof.Grammar
import Verif.Spec.Hover

/-! # The token under the cursor, and the answers of a hover -/

namespace Html
open Spec

variable {c : Cfg}

/-! ### Loops over tokens -/

theorem Run.length_mu {s s2 : Sc} {ts : List Tok} (h : Run c s ts s2) : ts.length + mu c s2 ≤ mu c s := by
  induction h with
  | nil s => simp
  | cons h hne hr ih =>
    have := (scan_step h).mu_lt hne
    simp only [List.length_cons]; omega

theorem scanWhile_ok {p : Tok → Bool} {f : Nat} {s s' : Sc} (h : scanWhile c p f s = .ok s') :
    ∃ ts s2, Run c s ts s2 ∧ scan c s2 = .ok s' ∧ (∀ t ∈ ts, p t = true) ∧
      (s'.tokenType = .EOS ∨ p s'.tok = false) := by
  induction f generalizing s with
  | zero => cases h
  | succ f ih =>
    unfold scanWhile at h
    obtain ⟨s1, h1, h⟩ := bind_ok h
    split at h
    · rename_i hc
      obtain ⟨ts, s2, hr, h2, h3, h4⟩ := ih h
      refine ⟨s1.tok :: ts, s2, .cons h1 hc.1 hr, h2, ?_, h4⟩
      intro t ht
      rcases List.mem_cons.1 ht with rfl | ht
      · exact hc.2
      · exact h3 t ht
    · rename_i hc
      cases h
      refine ⟨[], s, .nil s, h1, by simp, ?_⟩
      by_cases he : s'.tokenType = .EOS
      · exact .inl he
      · right
        rw [Bool.eq_false_iff]
        intro hp
        exact hc ⟨he, hp⟩

theorem scanWhile_run {p : Tok → Bool} {s s2 s3 : Sc} {ts : List Tok} (h : Run c s ts s2)
    (h3 : scan c s2 = .ok s3) (he : s3.tokenType = .EOS) : ∀ {f : Nat}, ts.length < f →
    ∃ s', scanWhile c p f s = .ok s' ∧
      match ts.find? (fun t => !p t) with
      | some t => s'.tok = t
      | none => s'.tokenType = .EOS := by
  induction h with
  | nil s =>
    intro f hf
    obtain ⟨f, rfl⟩ : ∃ k, f = k + 1 := ⟨f - 1, by simp at hf; omega⟩
    refine ⟨s3, ?_, he⟩
    unfold scanWhile
    simp only [h3, bind, Except.bind]
    rw [if_neg (by simp [he])]
  | @cons s s1 s2 ts h hne hr ih =>
    intro f hf
    obtain ⟨f, rfl⟩ : ∃ k, f = k + 1 := ⟨f - 1, by simp at hf; omega⟩
    unfold scanWhile
    simp only [h, bind, Except.bind]
    cases hp : p s1.tok with
    | false =>
      refine ⟨s1, by rw [if_neg (by simp)], ?_⟩
      simp [hp]
    | true =>
      rw [if_pos ⟨hne, rfl⟩]
      simp only [List.find?_cons, hp, Bool.not_true]
      exact ih h3 (by simp at hf; omega)

theorem touching_find {k : TT} {o b : Nat} : ∀ {ts : List Tok} {a : Nat}, Contiguous a ts b → a ≤ o →
    (ts.find? (fun t => !decide (t.stop < o ∨ (t.stop = o ∧ t.type ≠ k)))).filter
        (fun t => t.type = k ∧ o ≤ t.stop) =
      ts.find? (fun t => t.type = k ∧ t.offset ≤ o ∧ o ≤ t.stop)
  | [], _, _, _ => rfl
  | t :: ts, a, h, ha => by
    obtain ⟨h1, h2, h3⟩ := h
    rw [List.find?_cons, List.find?_cons]
    by_cases hc : t.stop < o ∨ (t.stop = o ∧ t.type ≠ k)
    · have hn : ¬ (t.type = k ∧ t.offset ≤ o ∧ o ≤ t.stop) := by
        rintro ⟨h4, _, h5⟩
        rcases hc with hc | ⟨_, hc⟩
        · omega
        · exact hc h4
      simp only [hc, decide_true, Bool.not_true, hn, decide_false]
      exact touching_find h3 (by rcases hc with hc | hc <;> omega)
    · simp only [hc, decide_false, Bool.not_false]
      by_cases hk : t.type = k
      · have hs : o ≤ t.stop := by
          rcases Nat.lt_or_ge t.stop o with h | h
          · exact absurd (.inl h) hc
          · exact h
        have : t.type = k ∧ t.offset ≤ o ∧ o ≤ t.stop := ⟨hk, by omega, hs⟩
        simp [this, hk, hs, Option.filter]
      · have hs : o < t.stop := by
          rcases Nat.lt_or_ge o t.stop with h | h
          · exact h
          · exfalso
            apply hc
            rcases Nat.lt_or_eq_of_le h with h | h
            · exact .inl h
            · exact .inr ⟨h, hk⟩
        have hnone : ts.find? (fun t => decide (t.type = k ∧ t.offset ≤ o ∧ o ≤ t.stop)) = none := by
          rw [List.find?_eq_none]
          intro x hx
          have := contiguous_ge h3 hx
          simp
          omega
        have hn : ¬ (t.type = k ∧ t.offset ≤ o ∧ o ≤ t.stop) := fun h => hk h.1
        simp only [hn, decide_false, hnone]
        simp [hk, Option.filter]

variable {e : HoverEnv} {d : TextDoc}

/-- The range found by the scan, from all tokens. -/
theorem tokenRange_eq {k : TT} {i o : Nat} {ts : List Tok} (hk : k ≠ .EOS)
    (ht : tokens (e.cfg d) (.new i .WithinContent) = .ok ts) (hi : i < d.text.length) (ho : i ≤ o) :
    e.tokenRange d k i o =
      .ok ((ts.find? (fun t => t.type = k ∧ t.offset ≤ o ∧ o ≤ t.stop)).map
        (fun t => ⟨d.posAt t.offset, d.posAt t.stop⟩)) := by
  obtain ⟨s2, s3, hr, h2, h3⟩ := tokensF_run ht
  obtain ⟨hcont, _⟩ := hr.contiguous (Nat.le_of_lt hi)
  have hmu := hr.length_mu
  have hmu2 := mu_le (e.cfg d) (.new i .WithinContent)
  have hlen : (e.cfg d).src.length = d.text.length := rfl
  have hpos : (Sc.new i .WithinContent).pos = i := rfl
  rw [hlen, hpos] at hmu2
  obtain ⟨s', h4, h5⟩ := scanWhile_run
    (p := fun t => decide (t.stop < o ∨ (t.stop = o ∧ t.type ≠ k))) hr h2 h3
    (f := 2 * d.text.length + 1) (by omega)
  unfold HoverEnv.tokenRange
  rw [h4]
  simp only [bind, Except.bind]
  rw [← touching_find hcont ho]
  cases hf : ts.find? (fun t => !decide (t.stop < o ∨ (t.stop = o ∧ t.type ≠ k))) with
  | none =>
    rw [hf] at h5
    simp only at h5
    rw [if_neg (by rw [h5]; intro h; exact hk h.1.symm)]
    rfl
  | some t =>
    rw [hf] at h5
    simp only at h5
    subst h5
    simp only [Option.filter]
    by_cases hc : s'.tokenType = k ∧ o ≤ s'.pos
    · have hc2 : s'.tok.type = k ∧ o ≤ s'.tok.stop := hc
      rw [if_pos hc, if_pos (decide_eq_true hc2)]
      rfl
    · rw [if_neg hc, if_neg (by rw [decide_eq_true_eq]; exact hc)]
      rfl

/-- The range found by the scan contains the cursor. -/
theorem tokenRange_contains {k : TT} {i o : Nat} {r : Range} (hi : i ≤ d.text.length) (ho : i ≤ o)
    (h : e.tokenRange d k i o = .ok (some r)) :
    ∃ a b, r = ⟨d.posAt a, d.posAt b⟩ ∧ a ≤ o ∧ o ≤ b := by
  unfold HoverEnv.tokenRange at h
  obtain ⟨s, h1, h⟩ := bind_ok h
  obtain ⟨ts, s2, hr, h2, h3, h4⟩ := scanWhile_ok h1
  split at h
  · rename_i hc
    cases h
    refine ⟨s.tokenOffset, s.pos, rfl, ?_, hc.2⟩
    rw [(scan_step h2).offset_eq]
    rcases List.eq_nil_or_concat ts with rfl | ⟨ts', t, rfl⟩
    · cases hr; exact ho
    · rw [List.concat_eq_append] at hr h3
      obtain ⟨hcont, _⟩ := hr.contiguous hi
      have ht := h3 t (by simp)
      obtain ⟨m, _, hm, _⟩ := contiguous_split hcont
      have : t.stop = s2.pos := hm.2.2
      simp at ht
      omega
  · cases h

/-! ### Neighbouring tokens -/

theorem StepTag.hasSpace {a s' : Sc} (h : StepTag c a s') :
    (s'.tokenType = .AttributeName → a.hasSpace = true) ∧
    (s'.tokenType = .AttributeName → s'.hasSpace = false) ∧
    s'.tokenType ≠ .StartTag ∧ s'.tokenType ≠ .AttributeValue := by
  cases h <;> simp_all [fin, adv]

theorem Step.hasSpace {s s' : Sc} (h : Step c s s') :
    (s'.tokenType = .AttributeName → s.hasSpace = true) ∧
    (s'.tokenType = .StartTag ∨ s'.tokenType = .AttributeName ∨ s'.tokenType = .AttributeValue →
      s'.hasSpace = false) := by
  cases h with
  | content _ h hs hx => cases hx <;> simp [fin, adv]
  | scriptContent _ h hs hl hx => cases hx <;> simp [fin, adv]
  | styleContent _ h hs hb h0 hx => cases hx <;> simp [fin, adv]
  | endTag _ h hs hx => cases hx <;> simp [fin, adv]
  | tag _ h hs hx =>
    obtain ⟨h1, h2, h3, h4⟩ := hx.hasSpace
    exact ⟨h1, by rintro (h | h | h); exact absurd h h3; exact h2 h; exact absurd h h4⟩
  | afterNameTag _ h hs hw h0 hx =>
    obtain ⟨h1, h2, h3, h4⟩ := hx.hasSpace
    exact ⟨h1, by rintro (h | h | h); exact absurd h h3; exact h2 h; exact absurd h h4⟩
  | valueTag _ h hs hw hb h0 h1 hx =>
    obtain ⟨h1, h2, h3, h4⟩ := hx.hasSpace
    exact ⟨fun h => absurd (h1 h) (by simp), by rintro (h | h | h); exact absurd h h3; exact h2 h; exact absurd h h4⟩
  | _ => simp [fin, adv]

/-- An attribute name does not directly follow a name or value. -/
theorem Run.attr_after {s s2 : Sc} {ts pre post : List Tok} {x t : Tok} (h : Run c s ts s2)
    (hts : ts = pre ++ x :: t :: post) (ht : t.type = .AttributeName) :
    x.type ≠ .StartTag ∧ x.type ≠ .AttributeName ∧ x.type ≠ .AttributeValue := by
  induction h generalizing pre with
  | nil s => simp at hts
  | @cons s s1 s2 ts h hne hr ih =>
    cases pre with
    | cons p pre =>
      simp at hts
      exact ih hts.2
    | nil =>
      simp at hts
      obtain ⟨rfl, hts⟩ := hts
      cases hr with
      | nil => simp at hts
      | @cons _ s3 _ ts' h' hne' hr' =>
        simp at hts
        obtain ⟨rfl, rfl⟩ := hts
        have h1 := ((scan_step h').hasSpace).1 ht
        have h2 := ((scan_step h).hasSpace).2
        rw [h1] at h2
        simpa [Sc.tok, not_or] using h2

theorem touching_adjacent {a b o : Nat} {ts : List Tok} {x t : Tok} (hc : Contiguous a ts b)
    (hs : ∀ t ∈ ts, t.offset < t.stop) (hx : x ∈ ts) (ht : t ∈ ts) (hne : x ≠ t)
    (h1 : Touches o x) (h2 : Touches o t) :
    (∃ pre post, ts = pre ++ x :: t :: post) ∨ (∃ pre post, ts = pre ++ t :: x :: post) := by
  have key : ∀ x t : Tok, Touches o x → Touches o t → ∀ pre mid post, ts = pre ++ x :: (mid ++ t :: post) →
      mid = [] := by
    intro x t h1 h2 pre mid post he
    cases mid with
    | nil => rfl
    | cons m mid =>
      exfalso
      rw [he] at hc
      obtain ⟨q, _, hq, _⟩ := contiguous_split hc
      obtain ⟨_, _, hq⟩ := hq
      obtain ⟨hm1, _, hm3⟩ := hq
      have := hs m (by rw [he]; simp)
      have := contiguous_ge hm3 (t := t) (by simp)
      have := h1.2
      have := h2.1
      omega
  obtain ⟨pre, post, he⟩ := List.append_of_mem hx
  rw [he] at ht
  rcases List.mem_append.1 ht with hp | hp
  · obtain ⟨pre1, mid, rfl⟩ := List.append_of_mem hp
    right
    have := key t x h2 h1 pre1 mid post (by rw [he]; simp)
    subst this
    exact ⟨pre1, post, by rw [he]; simp⟩
  · rcases List.mem_cons.1 hp with rfl | hp
    · exact absurd rfl hne
    · obtain ⟨mid, post1, rfl⟩ := List.append_of_mem hp
      left
      have := key x t h1 h2 pre mid post1 he
      subst this
      exact ⟨pre, post1, by rw [he]; simp⟩

/-- The scan of a hover from an element on. -/
structure HoverRun (c : Cfg) (i : Nat) (ts : List Tok) : Prop where
  cont : ∃ b, Contiguous i ts b
  adv : ∀ t ∈ ts, t.offset < t.stop
  attr : ∀ pre post x t, ts = pre ++ x :: t :: post → t.type = .AttributeName →
    x.type ≠ .StartTag ∧ x.type ≠ .AttributeName ∧ x.type ≠ .AttributeValue
  gram : ∀ pre post t, ts = pre ++ t :: post → MayFollow (pre.map Tok.type) t.type
  ok : ∀ t ∈ ts, TextOK c.src t

theorem hoverRun {i : Nat} {ts : List Tok} (he : c.emitPseudo = false) (hi : i ≤ c.src.length)
    (ht : tokens c (.new i .WithinContent) = .ok ts) : HoverRun c i ts := by
  obtain ⟨s2, hr, _⟩ := tokens_run ht
  obtain ⟨hc, _⟩ := hr.contiguous hi
  refine ⟨⟨_, hc⟩, ?_, fun pre post x t h => hr.attr_after h, ?_, ?_⟩
  · intro t ht
    obtain ⟨s0, s1, hst, hne, rfl⟩ := hr.mem ht
    have := hst.advances he hne
    simp only [Sc.tok]
    rw [hst.offset_eq]
    exact this
  · intro pre post t h
    have := hr.grammar (hist := []) (by simp [GInv, Sc.new, lastBracket]) h
    simpa using this
  · intro t ht
    obtain ⟨s0, s1, hst, hne, rfl⟩ := hr.mem ht
    exact hst.textOK hne

theorem HoverRun.unique {i o : Nat} {ts : List Tok} {x t : Tok} (h : HoverRun c i ts) (hx : x ∈ ts)
    (ht : t ∈ ts) (h1 : Touches o x) (h2 : Touches o t)
    (hxt : x.type = .StartTag ∨ x.type = .AttributeName ∨ x.type = .AttributeValue)
    (htt : t.type = .AttributeName ∨ t.type = .AttributeValue) : x = t := by
  obtain ⟨b, hc⟩ := h.cont
  rcases Classical.em (x = t) with h0 | hne
  · exact h0
  exfalso
  have prev : ∀ pre post (y : Tok), ts = pre ++ y :: x :: post →
      (y.type = .AttributeName ∨ y.type = .AttributeValue) → False := by
    intro pre post y he hy
    rcases hxt with hk | hk | hk
    · have := h.gram (pre ++ [y]) post x (by rw [he]; simp)
      rw [hk] at this
      unfold MayFollow lastNonWs at this
      rcases hy with hy | hy <;> simp [hy] at this
    · rcases hy with hy | hy
      · exact (h.attr pre post y x he hk).2.1 hy
      · exact (h.attr pre post y x he hk).2.2 hy
    · have := h.gram (pre ++ [y]) post x (by rw [he]; simp)
      rw [hk] at this
      unfold MayFollow at this
      rcases hy with hy | hy <;> simp [hy] at this
  rcases touching_adjacent hc h.adv hx ht hne h1 h2 with ⟨pre, post, he⟩ | ⟨pre, post, he⟩
  · rcases htt with hk | hk
    · obtain ⟨g1, g2, g3⟩ := h.attr pre post x t he hk
      rcases hxt with h | h | h
      · exact g1 h
      · exact g2 h
      · exact g3 h
    · have := h.gram (pre ++ [x]) post t (by rw [he]; simp)
      rw [hk] at this
      unfold MayFollow at this
      rcases hxt with hk | hk | hk <;> simp [hk] at this
  · exact prev pre post t he htt

theorem HoverRun.find_eq {i o : Nat} {ts : List Tok} {t : Tok} (h : HoverRun c i ts)
    (ht : t ∈ ts) (h2 : Touches o t) (htt : t.type = .AttributeName ∨ t.type = .AttributeValue) :
    ts.find? (fun x => x.type = t.type ∧ x.offset ≤ o ∧ o ≤ x.stop) = some t := by
  cases hf : ts.find? (fun x => decide (x.type = t.type ∧ x.offset ≤ o ∧ o ≤ x.stop)) with
  | none =>
    rw [List.find?_eq_none] at hf
    exact absurd (decide_eq_true ⟨rfl, h2.1, h2.2⟩) (hf t ht)
  | some x =>
    have h3 := List.find?_some hf
    simp only [decide_eq_true_eq] at h3
    have h4 := List.mem_of_find?_eq_some hf
    rw [h.unique h4 ht ⟨h3.2.1, h3.2.2⟩ h2 (by rw [h3.1]; exact .inr htt) htt]

theorem HoverRun.find_none {i o : Nat} {ts : List Tok} {t : Tok} {k : TT} (h : HoverRun c i ts)
    (ht : t ∈ ts) (h2 : Touches o t) (htt : t.type = .AttributeName ∨ t.type = .AttributeValue)
    (hk : k = .StartTag ∨ k = .AttributeName) (hne : t.type ≠ k) :
    ts.find? (fun x => x.type = k ∧ x.offset ≤ o ∧ o ≤ x.stop) = none := by
  rw [List.find?_eq_none]
  intro x hx
  simp only [decide_eq_true_eq]
  rintro ⟨h3, h4, h5⟩
  have := h.unique hx ht ⟨h4, h5⟩ h2 (by rw [h3]; rcases hk with h | h <;> simp [h]) htt
  rw [this] at h3
  exact hne h3

end Html
