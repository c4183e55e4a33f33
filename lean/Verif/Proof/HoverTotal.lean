import Verif.Proof.HoverTree

/-! # Hovering where no tag in front is cut short -/

namespace Html
open Spec Props

variable {c : Cfg}

/-- From `s` on the scanner does not panic at `o` and in front of it. -/
def Safe (c : Cfg) (o : Nat) (s : Sc) : Prop :=
  ∀ l s', Run c s l s' → s'.pos ≤ o → ∃ s1, scan c s' = .ok s1

theorem Safe.step {o : Nat} {s s1 : Sc} (h : Safe c o s) (h1 : scan c s = .ok s1) (hne : s1.tokenType ≠ .EOS) : Safe c o s1 :=
  fun _ _ hr hp => h _ _ (.cons h1 hne hr) hp

theorem Safe.scan {o : Nat} {s : Sc} (h : Safe c o s) (hp : s.pos ≤ o) : ∃ s1, Html.scan c s = .ok s1 := h _ _ (.nil s) hp

theorem Run.le {s s2 : Sc} {l : List Tok} (h : Run c s l s2) : s.pos ≤ s2.pos := by
  induction h with
  | nil s => exact Nat.le_refl _
  | cons h hne hr ih =>
    have := (scan_step h).offset_eq
    have := (scan_step h).offset_le
    omega

/-- A run that ends behind the place. -/
theorem Run.safe {s s2 : Sc} {l : List Tok} (h : Run c s l s2) {o : Nat} (ho : o < s2.pos) : Safe c o s := by
  induction h with
  | nil s =>
    intro l s' hr hp
    have := hr.le
    omega
  | @cons s s1 s2 ts h hne hr ih =>
    intro l s' hr' hp
    cases hr' with
    | nil => exact ⟨_, h⟩
    | cons h' hne' hr' =>
      rw [h] at h'; cases h'
      exact ih ho _ _ hr' hp

/-- The tokens of the parser, without a tag that is cut short in front of the place. -/
theorem Stream.safe {s : Sc} {l : List Tok} (h : Stream c s l) {o : Nat} (hl : ∀ t ∈ l, t.stop < o → t.offset < t.stop) :
    Safe c.plain o s := by
  intro l' s' hr hp
  induction hr generalizing l with
  | nil s =>
    have hs : ∃ s1, Html.scan c s = .ok s1 := by
      cases l with
      | nil => obtain ⟨s1, h1, _⟩ := h.nil; exact ⟨s1, h1⟩
      | cons t l => obtain ⟨s1, h1, _⟩ := h.cons; exact ⟨s1, h1⟩
    obtain ⟨s1, h1⟩ := hs
    rcases scan_plain h1 with ⟨h2, _⟩ | ⟨_, _, s2, h2, _⟩ <;> exact ⟨_, h2⟩
  | @cons s s1 s2 ts h1 hne hr ih =>
    have hle := hr.le
    cases l with
    | nil =>
      exfalso
      obtain ⟨s3, h3, h4⟩ := h.nil
      have h5 : c.src.length ≤ s.pos := (scan_step h3).eos_iff.1 h4
      exact hne ((scan_step h1).eos_iff.2 h5)
    | cons t l =>
      obtain ⟨s3, h3, _, rfl, h4⟩ := h.cons
      rcases scan_plain h3 with ⟨h2, _⟩ | ⟨h5, _, s4, h2, _, h6⟩
      · rw [h1] at h2; cases h2
        exact ih h4 (fun t ht => hl t (List.mem_cons_of_mem _ ht)) hp
      · exfalso
        rw [h1] at h2; cases h2
        have h7 := hl s3.tok List.mem_cons_self (by show s3.pos < o; omega)
        have h8 := (scan_step h3).offset_eq
        simp only [Sc.tok] at h7
        omega

/-! ### The loops -/

theorem scanWhile_safe {p : Tok → Bool} {o : Nat} (hpo : ∀ t, p t = true → t.stop ≤ o) : ∀ {f : Nat} {s : Sc}, Safe c o s →
    s.pos ≤ o → mu c s < f → ∃ s', scanWhile c p f s = .ok s'
  | 0, _, _, _, h => absurd h (Nat.not_lt_zero _)
  | f + 1, s, hs, hp, hm => by
    obtain ⟨s1, h1⟩ := hs.scan hp
    unfold scanWhile
    simp only [h1, bind, Except.bind]
    split
    · rename_i hc
      have := (scan_step h1).mu_lt hc.1
      exact scanWhile_safe hpo (hs.step h1 hc.1) (hpo _ hc.2) (by omega)
    · exact ⟨_, rfl⟩

theorem attrBefore_safe (hn : AsciiNext c.src) {start o : Nat} (ho : start ≤ o) : ∀ {f : Nat} {prev : Option Str} {s : Sc},
    (s.tokenType ≠ .EOS → Safe c o s) → (s.tokenType = .EOS ∧ 0 < f ∨ mu c s + 1 < f) → ∃ x, attrBefore c start f prev s = .ok x
  | 0, _, _, _, h => by omega
  | f + 1, prev, s, hs, hm => by
    unfold attrBefore
    split
    · rename_i hc
      have hs := hs hc.1
      obtain ⟨s1, h1⟩ := hs.scan (by omega)
      rw [h1]
      simp only [bind, Except.bind]
      have hm1 : s1.tokenType = .EOS ∧ 0 < f ∨ mu c s1 + 1 < f := by
        rcases hm with hm | hm
        · exact absurd hm.1 hc.1
        · by_cases he : s1.tokenType = .EOS
          · exact .inl ⟨he, by omega⟩
          · have := (scan_step h1).mu_lt he
            exact .inr (by omega)
      by_cases hx : s1.tokenType = .AttributeName
      · have htt : tokenText c s1 = .ok (bytesIn c.src s1.tokenOffset s1.pos) := by
          have hb := (scan_step h1).attrBd hn (.inl hx)
          unfold tokenText
          have hle := (scan_step h1).offset_le
          rw [(scan_step h1).offset_eq] at hle ⊢
          exact sliceStr_eq hle hb.1 hb.2
        rw [if_pos hx, htt]
        exact attrBefore_safe hn ho (fun hne => hs.step h1 hne) hm1
      · rw [if_neg hx]
        exact attrBefore_safe hn ho (fun hne => hs.step h1 hne) hm1
    · exact ⟨_, rfl⟩

variable {e : HoverEnv} {d : TextDoc}

/-- Looking for a token from `i` on. -/
theorem tokenRange_safe {k : TT} {i o : Nat} (hs : Safe (e.cfg d) o (.new i .WithinContent)) (ho : i ≤ o) :
    ∃ g, e.tokenRange d k i o = .ok g := by
  have hmu := mu_le (e.cfg d) (.new i .WithinContent)
  have hlen : (e.cfg d).src.length = d.text.length := rfl
  obtain ⟨s', h1⟩ := scanWhile_safe (p := fun t => decide (t.stop < o ∨ (t.stop = o ∧ t.type ≠ k)))
    (f := 2 * d.text.length + 1) (fun t ht => by simp only [decide_eq_true_eq] at ht; omega) hs ho (by omega)
  unfold HoverEnv.tokenRange
  rw [h1]
  simp only [bind, Except.bind]
  split <;> exact ⟨_, rfl⟩

/-- What is found are attribute names and values between characters, at the cursor or in front of it. -/
theorem tokenRange_bd {k : TT} {i o : Nat} {g : Range} {cps : List Nat} (hu : Utf8 cps d.text) (ho : i ≤ o)
    (hk : k = .AttributeName ∨ k = .AttributeValue) (h : e.tokenRange d k i o = .ok (some g)) :
    ∃ a b, g = ⟨d.posAt a, d.posAt b⟩ ∧ a ≤ o ∧ a ≤ b ∧ isBoundary d.text a = true ∧ isBoundary d.text b = true := by
  unfold HoverEnv.tokenRange at h
  obtain ⟨s', h1, h⟩ := bind_ok h
  obtain ⟨ts, s2, hr, h2, h3, _⟩ := scanWhile_ok h1
  split at h
  · rename_i hc
    cases h
    obtain ⟨b1, b2⟩ := (scan_step h2).attrBd (asciiNext_of_utf8 hu) (by rw [hc.1]; exact hk)
    have h4 := (scan_step h2).offset_eq
    have h5 := (scan_step h2).offset_le
    refine ⟨s'.tokenOffset, s'.pos, rfl, ?_, h5, by rw [h4]; exact b1, b2⟩
    rw [h4]
    cases hl : ts.getLast? with
    | none =>
      rw [List.getLast?_eq_none_iff] at hl
      subst hl
      cases hr with
      | nil => exact ho
    | some t =>
      obtain ⟨l, rfl⟩ := List.getLast?_eq_some_iff.1 hl
      obtain ⟨s3, _, r2⟩ := hr.split
      cases r2 with
      | cons ha hb hc2 =>
        cases hc2 with
        | nil =>
          have := h3 s2.tok (by simp)
          simp only [decide_eq_true_eq] at this
          have e1 : s2.tok.stop = s2.pos := rfl
          omega
  · cases h

/-- Hovering does not panic if the scanner does not between the element, or its end tag, and the cursor. -/
theorem hover_safe {u : Uni} {cs : Bool} {void : List Str} {roots : List Node} {cps : List Nat} {p : Pos} (hl : Lawful d)
    (hc : Columns d) (hp : Exact d p) (hu : Utf8 cps d.text) (h : parse u cs void d.text = .ok roots)
    (hs : ∀ n ps, findNodeAt roots (d.offsetAt p) = some (n, ps) → BeforeEndTag n (d.offsetAt p) →
      Safe (e.cfg d) (d.offsetAt p) (.new n.start .WithinContent))
    (hb : ∀ n ps b, findNodeAt roots (d.offsetAt p) = some (n, ps) → n.endTagStart = some b → b ≤ d.offsetAt p →
      Safe (e.cfg d) (d.offsetAt p) (.new b .WithinContent)) : ∃ a, doHover e d p roots = .ok a := by
  unfold doHover
  dsimp only
  cases hf : findNodeAt roots (d.offsetAt p) with
  | none => exact ⟨_, rfl⟩
  | some x =>
    obtain ⟨n, ps⟩ := x
    simp only
    obtain ⟨hm, hcov⟩ := findNodeAt_mem h hf
    cases ht : n.tag with
    | none => exact ⟨_, rfl⟩
    | some tag =>
      simp only
      have hinside : BeforeEndTag n (d.offsetAt p) → ∃ a, e.hoverInside d p n tag (d.offsetAt p) = .ok a := by
        intro hbe
        have hsn := hs n ps hf hbe
        unfold HoverEnv.hoverInside
        obtain ⟨x, hx⟩ := tokenRange_safe (k := .StartTag) hsn hcov.1
        simp only [hx, bind, Except.bind]
        cases x with
        | some g => exact ⟨_, rfl⟩
        | none =>
          simp only
          obtain ⟨x, hx⟩ := tokenRange_safe (k := .AttributeName) hsn hcov.1
          simp only [hx]
          cases x with
          | some g =>
            obtain ⟨a, b, rfl, _, h2, h3, h4⟩ := tokenRange_bd hu hcov.1 (.inl rfl) hx
            simp only [hl.content_ok h2 h3 h4]
            exact ⟨_, rfl⟩
          | none =>
            simp only
            have hent : ∃ g, getEntityRange d p (d.offsetAt p) = .ok g := by
              rcases Classical.em (∃ k m, EntityAt d.text (d.offsetAt p) k m) with ⟨k, m, hkm⟩ | hno
              · exact ⟨_, getEntityRange_some hc hp hkm⟩
              · exact ⟨_, getEntityRange_none hc hp (fun k m hkm => hno ⟨k, m, hkm⟩)⟩
            obtain ⟨x, hx⟩ := hent
            simp only [hx]
            cases x with
            | some g => exact entityHover_total hx
            | none =>
              simp only
              unfold HoverEnv.hoverValue
              obtain ⟨x, hx⟩ := tokenRange_safe (k := .AttributeValue) hsn hcov.1
              simp only [hx, bind, Except.bind]
              cases x with
              | none => exact ⟨_, rfl⟩
              | some g =>
                obtain ⟨a, b, rfl, h1, h2, h3, h4⟩ := tokenRange_bd hu hcov.1 (.inr rfl) hx
                simp only [hl.content_ok h2 h3 h4]
                have hsa : ∃ z, e.scanAttr d n.start a = .ok z := by
                  unfold HoverEnv.scanAttr
                  obtain ⟨s1, hs1⟩ := hsn.scan hcov.1
                  simp only [hs1, bind, Except.bind]
                  refine attrBefore_safe (c := e.cfg d) (asciiNext_of_utf8 hu) h1 (fun hne => hsn.step hs1 hne) ?_
                  by_cases he : s1.tokenType = .EOS
                  · exact .inl ⟨he, by omega⟩
                  · have := (scan_step hs1).mu_lt he
                    have hmu := mu_le (e.cfg d) (.new n.start .WithinContent)
                    have hlen : (e.cfg d).src.length = d.text.length := rfl
                    exact .inr (by omega)
                obtain ⟨z, hz⟩ := hsa
                rw [hl.roundTrip _ (isBoundary_le h3) h3, hz]
                cases z <;> exact ⟨_, rfl⟩
      cases he : n.endTagStart with
      | none => exact hinside (fun a ha => by rw [he] at ha; cases ha)
      | some b =>
        simp only
        split
        · rename_i hbo
          obtain ⟨x, hx⟩ := tokenRange_safe (k := .EndTag) (hb n ps b hf he hbo) hbo
          simp only [hx, bind, Except.bind]
          cases x <;> exact ⟨_, rfl⟩
        · rename_i hbo
          exact hinside (fun a ha => by rw [he] at ha; cases ha; omega)

/-! ### End tags -/

theorem Step.endTagFacts {s s' : Sc} (h : Step c s s') (ht : s'.tokenType = .EndTagOpen) :
    (b!"</").isPrefixOf (rest c s) = true ∧ s'.state = .AfterOpeningEndTag ∧ s'.pos = s.pos + 2 ∧ s'.tokenError = none := by
  cases h with
  | content _ h0 hs hx => cases hx <;> simp_all [fin, adv]
  | scriptContent _ h0 hs hl hx => cases hx <;> simp_all [fin, adv, rest]
  | styleContent _ h0 hs hl hb hx => cases hx <;> simp_all [fin, adv, rest]
  | tag _ h hs hx => cases hx <;> (simp [fin] at ht)
  | afterNameTag _ h hs hw h0 hx => cases hx <;> (simp [fin] at ht)
  | valueTag _ h hs hw hb h0 h1 hx => cases hx <;> (simp [fin] at ht)
  | endTag _ h hs hx => cases hx <;> (simp [fin] at ht)
  | _ => simp [fin] at ht

theorem scan_opensEnd {a : Nat} (h : (b!"</").isPrefixOf (c.src.drop a) = true) :
    ∃ s, scan c (.new a .WithinContent) = .ok s ∧ s.tok = ⟨.EndTagOpen, a, a + 2, none, .AfterOpeningEndTag⟩ := by
  obtain ⟨r, hr⟩ := List.isPrefixOf_iff_prefix.1 h
  have h0 : c.src[a]? = some 60 := by
    have := congrArg (·[0]?) hr
    simpa [List.getElem?_drop] using this.symm
  have h1 : c.src[a + 1]? = some 47 := by
    have := congrArg (·[1]?) hr
    simpa [List.getElem?_drop] using this.symm
  have hlt : a < c.src.length := (List.getElem?_eq_some_iff.1 h0).1
  rw [scan_eq_internalScan]
  unfold internalScan
  rw [eos_false (by exact hlt)]
  simp only [Bool.false_eq_true, if_false, Sc.new]
  unfold armContent
  simp only [peek, h0, if_true, adv, h1]
  exact ⟨_, rfl, rfl⟩

/-- A scanner that starts at the `</` of an end tag reads the same tokens as the parser. -/
theorem restart_end {s : Sc} {ts pre post : List Tok} {t : Tok} (h : tokens c s = .ok ts)
    (hts : ts = pre ++ t :: post) (ht : t.type = .EndTagOpen) : Stream c (.new t.offset .WithinContent) (t :: post) := by
  unfold tokens at h
  rw [hts] at h
  obtain ⟨s0, h1, h2⟩ := tokensF_split h
  generalize 2 * (c.src.length - s.pos) + 2 - pre.length = f at h2
  cases f with
  | zero => cases h2
  | succ f =>
    unfold tokensF at h2
    obtain ⟨s1, h3, h2⟩ := bind_ok h2
    split at h2
    · cases h2
    · obtain ⟨ts', h4, h2⟩ := bind_ok h2
      cases h2
      have hst := scan_step h3
      obtain ⟨i1, i2, i3, i4⟩ := hst.endTagFacts ht
      have hoff : s1.tok.offset = s0.pos := hst.offset_eq
      rw [hoff]
      obtain ⟨s', h5, h6⟩ := scan_opensEnd (c := c) (a := s0.pos) i1
      have e1 : s'.tokenType = .EndTagOpen := congrArg Tok.type h6
      have e2 : s'.state = .AfterOpeningEndTag := congrArg Tok.state h6
      have e3 : s'.pos = s0.pos + 2 := congrArg Tok.stop h6
      have e5 : s1.tok = s'.tok := by
        rw [h6]
        have a1 : s1.tok.type = .EndTagOpen := ht
        have a2 : s1.tok.state = .AfterOpeningEndTag := i2
        have a3 : s1.tok.stop = s0.pos + 2 := i3
        have a4 : s1.tok.error = none := i4
        rw [← a1, ← a2, ← a3, ← hoff, ← a4]
      have e4 : Eqv c s1 s' := ⟨by rw [i2, e2], by rw [i3, e3], by rw [Hid, i2]; simp⟩
      rw [tokensF_eqv e4] at h4
      obtain ⟨s2, s3, h7, h8, h9⟩ := tokensF_run h4
      refine ⟨s2, s3, ?_, h8, h9⟩
      rw [e5]
      exact .cons h5 (by rw [e1]; decide) h7

variable {u : Uni} {cs : Bool} {void : List Str} {src : Str} {roots : List Node} {ts : List Tok}

/-- In an end tag a scanner that starts at its `</` does not panic. -/
theorem Doc.end_safe (h : Doc u cs void src roots ts) {n : Node} (hn : InForest roots n) {b o : Nat}
    (hb : n.endTagStart = some b) (ho : o < n.stop) : Safe ⟨u, src, false, cs⟩ o (.new b .WithinContent) := by
  obtain ⟨x, ⟨pre, t, mid, post, h1, h2, h3, h4, h5⟩, hx⟩ := (parse_tags h.parse h.tokens hn).ends b hb
  have hcg := h.contiguous
  have hs := restart_end h.tokens h1 h2
  rw [h3] at hs
  refine Stream.safe (c := parserCfg u cs src) hs fun y hy hlt => ?_
  have hy' : y ∈ ts := by rw [h1]; exact List.mem_append_right _ hy
  rcases C03_only_pseudo_close_empty _ _ _ h.tokens y hy' with g | ⟨_, g, _⟩
  · exact g
  · exfalso
    have hbr : isBracket y.type = true := by rcases g with g | g <;> rw [g] <;> rfl
    rcases List.mem_cons.1 hy with rfl | hy
    · rcases g with g | g <;> rw [g] at h2 <;> cases h2
    · rcases List.mem_append.1 hy with hy | hy
      · rw [h4 y hy] at hbr; cases hbr
      · rw [h1, show pre ++ t :: (mid ++ x :: post) = (pre ++ t :: mid) ++ x :: post by simp] at hcg
        obtain ⟨q, _, hcg, _⟩ := contiguous_split hcg
        rcases List.mem_cons.1 hy with rfl | hy
        · omega
        · have := contiguous_ge hcg.2.2 hy
          obtain ⟨l1, l2, rfl⟩ := List.append_of_mem hy
          obtain ⟨k, _, g3, _⟩ := contiguous_split hcg.2.2
          have := g3.1
          have := g3.2.1
          omega

/-- Hovering does not panic if no tag between the beginning of the element and the cursor is cut short. -/
theorem hover_uncut {cps : List Nat} {p : Pos} (hl : Lawful d) (hc : Columns d) (hp : Exact d p) (hu : Utf8 cps d.text)
    (h : Doc e.uni e.caseSensitive void d.text roots ts)
    (hcut : ∀ n, Innermost roots n (d.offsetAt p) → BeforeEndTag n (d.offsetAt p) →
      ∀ t ∈ ts, n.start < t.stop → t.stop < d.offsetAt p → t.offset < t.stop) : ∃ a, doHover e d p roots = .ok a := by
  refine hover_safe hl hc hp hu h.parse (fun n ps hf hbe => ?_) (fun n ps b hf hb hbo => ?_)
  · obtain ⟨hm, hcov⟩ := findNodeAt_mem h.parse hf
    obtain ⟨pre, t, post, h1, h2, h3, h4, _⟩ := h.from_node hm
    refine Stream.safe (c := parserCfg e.uni e.caseSensitive d.text) h4 fun y hy hlt => ?_
    have hy' : y ∈ ts := by rw [h1]; exact List.mem_append_right _ hy
    refine hcut n ⟨hm, hcov, ?_⟩ hbe y hy' ?_ hlt
    · have hs := findNodeAt_spec (o := d.offsetAt p) (parse_nest h.parse)
      rw [hf] at hs
      intro k hk hck
      have h6 := (h.inner_gt hm (.root hk)).2
      rcases hs.all k (.child hm hk) hck with h7 | rfl
      · have := (h.inner_gt (.child hm hk) (chain_below hs.chain h7)).2
        omega
      · omega
    · have h0 := h.nonempty (t := t) (by rw [h1]; simp) (.inl h2)
      have hcg := h.contiguous
      rw [h1] at hcg
      obtain ⟨m, _, ⟨_, _, hcg⟩, _⟩ := contiguous_split hcg
      rcases List.mem_cons.1 hy with rfl | hy
      · omega
      · have := contiguous_ge hcg hy
        obtain ⟨l1, l2, rfl⟩ := List.append_of_mem hy
        obtain ⟨k, _, g3, _⟩ := contiguous_split hcg
        have := g3.1
        have := g3.2.1
        omega
  · obtain ⟨hm, hcov⟩ := findNodeAt_mem h.parse hf
    exact h.end_safe hm hb hcov.2

/-- In an end tag the element is the innermost one. -/
theorem in_end_tag {n : Node} {b o : Nat} (h : parse u cs void src = .ok roots) (hn : InForest roots n)
    (hb : n.endTagStart = some b) (h1 : b ≤ o) (h2 : o < n.stop) : Covers n o ∧ ∀ k ∈ n.children, ¬ Covers k o := by
  have hd := parse_done h hn
  cases hs : n.startTagEnd with
  | none =>
    obtain ⟨_, g2, _⟩ := hd.noste hs
    rw [hb] at g2; cases g2
  | some x =>
    obtain ⟨g1, _, g3, g4⟩ := hd.ste x hs
    have he : contentEnd n = b := by unfold contentEnd; rw [hb]; rfl
    have g5 := g3.le
    rw [he] at g3 g5
    refine ⟨⟨by omega, h2⟩, fun k hk hc => ?_⟩
    have := (g3.mem hk).2
    have := hc.2
    omega

end Html
