import Verif.Proof.LineEndingsLinks
import Verif.Proof.Moved
import Verif.Proof.HoverTotal

/-! # Hovering with other line endings -/

namespace Html
open Spec

/-! ### Letters -/

theorem at_crlf (a : Str) (i : Nat) : (crlf a)[crOff a i]? = (a[i]?).map (fun b => if b = 10 then 13 else b) := by
  rw [← List.head?_drop, crlf_drop, ← List.head?_drop]
  cases a.drop i with
  | nil => rfl
  | cons b t =>
    unfold crlf
    split
    · rename_i hb; subst hb; rfl
    · rename_i hb
      simp [hb]

theorem letter_crlf (a : Str) (i : Nat) : isLetterOrDigit (crlf a) (crOff a i) = isLetterOrDigit a i := by
  unfold isLetterOrDigit
  rw [at_crlf]
  cases a[i]? with
  | none => rfl
  | some b =>
    simp only [Option.map_some]
    by_cases hb : b = 10
    · subst hb; rfl
    · rw [if_neg hb]

theorem letter_ne {a : Str} {i : Nat} (h : isLetterOrDigit a i = true) : a[i]? ≠ some 10 := by
  intro h0
  unfold isLetterOrDigit at h
  rw [h0] at h
  cases h

theorem lettersBefore_crlf (a : Str) : ∀ o, lettersBefore (crlf a) (crOff a o) = lettersBefore a o
  | 0 => by rw [crOff_zero]; rfl
  | o + 1 => by
    by_cases h : a[o]? = some 10
    · have hlt : o < a.length := (List.getElem?_eq_some_iff.1 h).1
      have hl := crlf_last a (o := o + 1) (by omega) (by omega)
      rw [Nat.add_sub_cancel, h] at hl
      have hpos : 0 < crOff a (o + 1) := by
        have := (crOff_lt (a := a) (o := 0) (p := o + 1)).2 (by omega)
        omega
      obtain ⟨k, hk⟩ : ∃ k, crOff a (o + 1) = k + 1 := ⟨crOff a (o + 1) - 1, by omega⟩
      rw [hk] at hl ⊢
      rw [Nat.add_sub_cancel] at hl
      have e1 : isLetterOrDigit (crlf a) k = false := by unfold isLetterOrDigit; rw [hl]; rfl
      have e2 : isLetterOrDigit a o = false := by unfold isLetterOrDigit; rw [h]; rfl
      rw [lettersBefore, lettersBefore, e1, e2]
      rfl
    · rw [crOff_succ h, lettersBefore, lettersBefore, letter_crlf, lettersBefore_crlf a o]

theorem before_off (a : Str) : ∀ o, crOff a (o - lettersBefore a o) + lettersBefore a o = crOff a o
  | 0 => rfl
  | o + 1 => by
    rw [lettersBefore]
    by_cases h : isLetterOrDigit a o = true
    · rw [if_pos h, crOff_succ (letter_ne h), ← before_off a o, show o + 1 - (1 + lettersBefore a o) = o - lettersBefore a o by omega]
      omega
    · rw [if_neg h]; rfl

theorem lettersFrom_crlf (a : Str) : ∀ f k, lettersFrom (crlf a) f (crOff a k) = lettersFrom a f k
  | 0, _ => rfl
  | f + 1, k => by
    rw [lettersFrom, lettersFrom, letter_crlf]
    by_cases h : isLetterOrDigit a k = true
    · rw [if_pos h, if_pos h, ← crOff_succ (letter_ne h), lettersFrom_crlf a f (k + 1)]
    · rw [if_neg h, if_neg h]

theorem from_off (a : Str) : ∀ f k, crOff a (k + lettersFrom a f k) = crOff a k + lettersFrom a f k
  | 0, _ => rfl
  | f + 1, k => by
    rw [lettersFrom]
    by_cases h : isLetterOrDigit a k = true
    · have := from_off a f (k + 1)
      rw [crOff_succ (letter_ne h)] at this
      rw [if_pos h, ← Nat.add_assoc, this]
      omega
    · rw [if_neg h]; rfl

theorem lettersFrom_len (a : Str) (k : Nat) : lettersFrom (crlf a) (crlf a).length (crOff a k) = lettersFrom a a.length k := by
  rw [lettersFrom_crlf, show (crlf a).length = a.length + ((crlf a).length - a.length) by rw [crlf_length]; omega,
    lettersFrom_fuel _ _ _ (by omega)]

section
variable {e : HoverEnv} {d d' : TextDoc} {cps : List Nat}

theorem entityRange_cr (hd : OtherEnds d d') {o : Nat} (ho : o ≤ d.text.length) (p : Pos) :
    getEntityRange d' p (crOff d.text o) = getEntityRange d p o := by
  unfold getEntityRange
  dsimp only
  have hb := before_off d.text o
  have hle := lettersBefore_le (x := d.text) o
  rw [hd.text, lettersBefore_crlf, show crOff d.text o - lettersBefore d.text o = crOff d.text (o - lettersBefore d.text o) by omega,
    lettersFrom_len, ← from_off, at_crlf]
  have h1 : (crOff d.text (o - lettersBefore d.text o) > 0 ∧
      (crlf d.text)[crOff d.text (o - lettersBefore d.text o) - 1]? = some 38) ↔
      (o - lettersBefore d.text o > 0 ∧ d.text[o - lettersBefore d.text o - 1]? = some 38) := by
    by_cases h0 : 0 < o - lettersBefore d.text o
    · have := (crOff_lt (a := d.text)).2 h0
      rw [crlf_last _ h0 (by omega)]
      exact ⟨fun h => ⟨h0, h.2⟩, fun h => ⟨by omega, h.2⟩⟩
    · rw [show o - lettersBefore d.text o = 0 by omega, crOff_zero]
      exact ⟨fun h => absurd h.1 (by omega), fun h => absurd h.1 (by omega)⟩
  have h2 : ∀ i : Nat, (d.text[i]?).map (fun b => if b = 10 then 13 else b) = some 59 ↔ d.text[i]? = some 59 := by
    intro i
    cases d.text[i]? with
    | none => simp
    | some b =>
      simp only [Option.map_some, Option.some.injEq]
      split <;> omega
  simp only [h1, h2]

theorem entityHover_cr {a : Str} {o : Nat} {r : Range} : e.entityHover (crlf a) r (crOff a o) = e.entityHover a r o := by
  unfold HoverEnv.entityHover filterEntity
  dsimp only
  have hb := before_off a o
  have hle := lettersBefore_le (x := a) o
  rw [lettersBefore_crlf, show crOff a o - lettersBefore a o = crOff a (o - lettersBefore a o) by omega, lettersFrom_len]
  by_cases h : lettersBefore a o = o
  · have h0 := crOff_zero a
    rw [show o - lettersBefore a o = 0 by omega, h0] at hb
    rw [if_pos h, if_pos (by omega)]
  · have h1 := (crOff_lt (a := a) (o := 0) (p := o - lettersBefore a o)).2 (by omega)
    rw [if_neg h, if_neg (by omega), ← from_off, crlf_bytesIn (by omega)]
    have h10 : 10 ∉ bytesIn a (o - lettersBefore a o) (o - lettersBefore a o + lettersFrom a a.length (o - lettersBefore a o)) := by
      have h2 := crOff_add a (o - lettersBefore a o) (lettersFrom a a.length (o - lettersBefore a o))
      rw [from_off] at h2
      have h3 : ((a.drop (o - lettersBefore a o)).take (lettersFrom a a.length (o - lettersBefore a o))).count 10 = 0 := by omega
      rw [List.count_eq_zero] at h3
      unfold bytesIn
      rw [List.drop_take, Nat.add_sub_cancel_left]
      exact h3
    rw [crlf_none h10]

/-! ### Tokens -/

theorem ln_scanWhile {c c' : Cfg} (h : Lines c c') {q q' : Tok → Bool} (hq : ∀ t, q' (crTok c.src t) = q t) (f : Nat) (s : Sc)
    (l : Option Str) (hl : s.pos < c.src.length → s.lastType.isSome = l.isSome) :
    EC c (scanWhile c q f s) (scanWhile c' q' f (crS c s l)) := by
  induction f generalizing s l with
  | zero => exact rfl
  | succ f ih =>
    unfold scanWhile
    have hs := ln_scan h s l hl
    revert hs
    cases scan c s with
    | error e =>
      cases scan c' (crS c s l) with
      | error e' => exact id
      | ok s' => exact False.elim
    | ok s1 =>
      cases scan c' (crS c s l) with
      | error e' => exact False.elim
      | ok s' =>
        rintro ⟨l1, rfl, hl1⟩
        have hq1 : q' (crS c s1 l1).tok = q s1.tok := hq s1.tok
        simp only [bind, Except.bind, hq1]
        show EC c (if s1.tokenType ≠ .EOS ∧ q s1.tok = true then _ else _) (if s1.tokenType ≠ .EOS ∧ q s1.tok = true then _ else _)
        split
        · exact ih s1 l1 hl1
        · exact ⟨l1, rfl, hl1⟩

theorem tokenRange_cr (hd : OtherEnds d d') (hf : Fit d.text) (t : TT) (i o : Nat) :
    e.tokenRange d' t (crOff d.text i) (crOff d.text o) = e.tokenRange d t i o := by
  unfold HoverEnv.tokenRange
  have hc : Lines (e.cfg d) (e.cfg d') := ⟨rfl, rfl, rfl, hd.text, hf⟩
  have hs := ln_scanWhile hc (q := fun x => decide (x.stop < o ∨ (x.stop = o ∧ x.type ≠ t)))
    (q' := fun x => decide (x.stop < crOff d.text o ∨ (x.stop = crOff d.text o ∧ x.type ≠ t)))
    (fun x => by
      have h1 : (crOff d.text x.stop < crOff d.text o) = (x.stop < o) := propext crOff_lt
      have h2 : (crOff d.text x.stop = crOff d.text o) = (x.stop = o) := propext crOff_inj
      show decide (crOff d.text x.stop < crOff d.text o ∨ (crOff d.text x.stop = crOff d.text o ∧ x.type ≠ t)) = _
      simp only [h1, h2]) (2 * d'.text.length + 1) (.new i .WithinContent) none (fun _ => rfl)
  rw [crS_new] at hs
  have hle : d.text.length ≤ d'.text.length := by rw [hd.text, crlf_length]; omega
  have := scanWhile_fuel (c := e.cfg d) (q := fun x => decide (x.stop < o ∨ (x.stop = o ∧ x.type ≠ t)))
    (mu_new (o := i)) (2 * d'.text.length - 2 * d.text.length)
  rw [show 2 * (e.cfg d).src.length + 1 + (2 * d'.text.length - 2 * d.text.length) = 2 * d'.text.length + 1 by
    show 2 * d.text.length + 1 + _ = _; omega] at this
  rw [this] at hs
  revert hs
  show EC _ (scanWhile _ _ (2 * d.text.length + 1) _) (scanWhile (e.cfg d') _ _ (.new (crOff d.text i) .WithinContent)) → _
  cases scanWhile (e.cfg d) (fun x => decide (x.stop < o ∨ (x.stop = o ∧ x.type ≠ t))) (2 * d.text.length + 1)
      (.new i .WithinContent) with
  | error x =>
    cases scanWhile (e.cfg d') (fun x => decide (x.stop < crOff d.text o ∨ (x.stop = crOff d.text o ∧ x.type ≠ t)))
        (2 * d'.text.length + 1) (.new (crOff d.text i) .WithinContent) with
    | error y => intro h; cases h; rfl
    | ok s' => exact False.elim
  | ok s1 =>
    cases scanWhile (e.cfg d') (fun x => decide (x.stop < crOff d.text o ∨ (x.stop = crOff d.text o ∧ x.type ≠ t)))
        (2 * d'.text.length + 1) (.new (crOff d.text i) .WithinContent) with
    | error y => exact False.elim
    | ok s' =>
      rintro ⟨l1, rfl, _⟩
      simp only [bind, Except.bind]
      show (if s1.tokenType = t ∧ crOff d.text o ≤ crOff d.text s1.pos then
        Except.ok (some (⟨d'.posAt (crOff d.text s1.tokenOffset), d'.posAt (crOff d.text s1.pos)⟩ : Range)) else _) = _
      simp only [hd.pos, crOff_le]

theorem ln_attrBefore {c c' : Cfg} (h : Lines c c') (v f : Nat) (prev : Option Str) (s : Sc)
    (l : Option Str) (hl : s.pos < c.src.length → s.lastType.isSome = l.isSome) :
    attrBefore c' (crOff c.src v) f prev (crS c s l) = attrBefore c v f prev s := by
  induction f generalizing prev s l with
  | zero => rfl
  | succ f ih =>
    unfold attrBefore
    show (if s.tokenType ≠ .EOS ∧ crOff c.src s.pos ≤ crOff c.src v then _ else _) = _
    simp only [crOff_le]
    split
    · have hs := ln_scan h s l hl
      revert hs
      cases h1 : scan c s with
      | error e =>
        cases scan c' (crS c s l) with
        | error e' => intro hs; cases hs; rfl
        | ok s' => exact False.elim
      | ok s1 =>
        cases scan c' (crS c s l) with
        | error e' => exact False.elim
        | ok s' =>
          rintro ⟨l1, rfl, hl1⟩
          simp only [bind, Except.bind]
          have e0 : (crS c s1 l1).tokenType = s1.tokenType := rfl
          rw [e0]
          by_cases ht : s1.tokenType = .AttributeName
          · rw [if_pos ht, if_pos ht]
            have e1 : tokenText c' (crS c s1 l1) = tokenText c s1 := by
              unfold tokenText
              show sliceStr c'.src (crOff c.src s1.tokenOffset) (crOff c.src s1.pos) = _
              rw [h.src, crlf_slice]
              cases hs : sliceStr c.src s1.tokenOffset s1.pos with
              | error x => rfl
              | ok r =>
                obtain ⟨_, _, _, _, rfl⟩ := sliceStr_ok hs
                simp only [Except.map, crlf_none (name_line h1 (.inr (.inr ht)))]
            rw [e1]
            cases tokenText c s1 with
            | error x => rfl
            | ok t => exact ih _ s1 l1 hl1
          · rw [if_neg ht, if_neg ht]
            exact ih _ s1 l1 hl1
    · rfl

theorem scanAttr_cr (hd : OtherEnds d d') (hf : Fit d.text) (i v : Nat) :
    e.scanAttr d' (crOff d.text i) (crOff d.text v) = e.scanAttr d i v := by
  unfold HoverEnv.scanAttr
  have hc : Lines (e.cfg d) (e.cfg d') := ⟨rfl, rfl, rfl, hd.text, hf⟩
  have hs := ln_scan hc (.new i .WithinContent) none (fun _ => rfl)
  rw [crS_new] at hs
  revert hs
  show EC _ _ (scan _ (.new (crOff d.text i) .WithinContent)) → _
  cases h1 : scan (e.cfg d) (.new i .WithinContent) with
  | error x =>
    cases scan (e.cfg d') (.new (crOff d.text i) .WithinContent) with
    | error y => intro h; cases h; rfl
    | ok s' => exact False.elim
  | ok s =>
    cases scan (e.cfg d') (.new (crOff d.text i) .WithinContent) with
    | error y => exact False.elim
    | ok s' =>
      rintro ⟨l1, rfl, hl1⟩
      simp only [bind, Except.bind]
      have hle : d.text.length ≤ d'.text.length := by rw [hd.text, crlf_length]; omega
      rw [show 2 * d'.text.length + 1 = 2 * d.text.length + 1 + (2 * d'.text.length - 2 * d.text.length) by omega]
      refine (ln_attrBefore hc v _ none s l1 hl1).trans (attrBefore_fuel ?_ _)
      by_cases he : s.tokenType = .EOS
      · exact .inl ⟨he, by omega⟩
      · have := (scan_step h1).mu_lt he
        have hm : mu (e.cfg d) (.new i .WithinContent) < 2 * (e.cfg d).src.length + 1 := mu_new
        rw [show (e.cfg d).src = d.text from rfl] at hm
        exact .inr (by omega)

theorem scanWhile_mem {c : Cfg} {q : Tok → Bool} {f g : Nat} {s s' : Sc} {ts : List Tok} (ht : tokensF c g s = .ok ts)
    (h : scanWhile c q f s = .ok s') (hne : s'.tokenType ≠ .EOS) : s'.tok ∈ ts := by
  induction f generalizing g s ts with
  | zero => cases h
  | succ f ih =>
    cases g with
    | zero => simp [tokensF] at ht
    | succ g =>
      unfold scanWhile at h
      unfold tokensF at ht
      obtain ⟨s1, h1, h⟩ := bind_ok h
      rw [h1] at ht
      simp only [bind, Except.bind] at ht
      by_cases he : s1.tokenType = .EOS
      · rw [if_neg (fun hx => hx.1 he)] at h
        cases h
        exact absurd he hne
      · rw [if_neg he] at ht
        cases h2 : tokensF c g s1 with
        | error y => rw [h2] at ht; cases ht
        | ok ts' =>
          rw [h2] at ht
          cases ht
          split at h
          · exact List.mem_cons_of_mem _ (ih h2 h)
          · cases h
            exact List.mem_cons_self

theorem tokenRange_found {k : TT} (hk : k = .AttributeName ∨ k = .AttributeValue) {i o : Nat} {g : Range}
    (hu : Utf8 cps d.text) (hd : OtherEnds d d') (hl : Lawful d) (hl' : Lawful d')
    {ts : List Tok} (ht : tokens (e.cfg d) (.new i .WithinContent) = .ok ts)
    (hv : ∀ t ∈ ts, t.type = .AttributeValue → t.offset ≤ o → o ≤ t.stop → 10 ∉ text d.text t)
    (hio : i ≤ o) (h : e.tokenRange d k i o = .ok (some g)) :
    d'.content g = d.content g ∧ d'.offsetAt g.start = crOff d.text (d.offsetAt g.start) := by
  obtain ⟨a0, b0, hg0, ha0, _, hb0, _⟩ := tokenRange_bd hu hio hk h
  unfold HoverEnv.tokenRange at h
  obtain ⟨s', h1, h⟩ := bind_ok h
  split at h
  · rename_i hc
    cases h
    obtain ⟨rs, s2, hr, h2, _, _⟩ := scanWhile_ok h1
    obtain ⟨b1, b2⟩ := (scan_step h2).attrBd (asciiNext_of_utf8 hu) (by rw [hc.1]; exact hk)
    have b3 := (scan_step h2).offset_eq
    rw [← b3] at b1
    have b1 : isBoundary d.text s'.tokenOffset = true := b1
    have b2 : isBoundary d.text s'.pos = true := b2
    have hm := scanWhile_mem ht h1 (by rw [hc.1]; rcases hk with rfl | rfl <;> simp)
    obtain ⟨p1, p2⟩ := offset_crlf hd hl hl' (isBoundary_le b1) b1
    obtain ⟨p3, p4⟩ := offset_crlf hd hl hl' (isBoundary_le b2) b2
    have ha : s'.tokenOffset ≤ o := by
      have e1 : d.posAt s'.tokenOffset = d.posAt a0 := congrArg Range.start hg0
      have e2 := hl.roundTrip a0 (isBoundary_le hb0) hb0
      rw [← e1, p1] at e2
      omega
    have h10 : 10 ∉ bytesIn d.text s'.tokenOffset s'.pos := by
      rcases hk with hk | hk
      · exact name_line h2 (.inr (.inr (by rw [hc.1, hk])))
      · exact hv s'.tok hm (by show s'.tokenType = _; rw [hc.1, hk]) ha hc.2
    refine ⟨?_, by rw [p1, p2]⟩
    unfold TextDoc.content
    rw [p1, p2, p3, p4]
    exact slice_line hd h10
  · cases h

theorem hoverValue_cr {n : Node} {t : Str} {o : Nat} (hu : Utf8 cps d.text) (hd : OtherEnds d d') (hl : Lawful d) (hl' : Lawful d')
    {ts : List Tok} (ht : tokens (e.cfg d) (.new n.start .WithinContent) = .ok ts)
    (hv : ∀ t ∈ ts, t.type = .AttributeValue → t.offset ≤ o → o ≤ t.stop → 10 ∉ text d.text t) (hio : n.start ≤ o) :
    e.hoverValue d' (crNode d.text n) t (crOff d.text o) = e.hoverValue d n t o := by
  unfold HoverEnv.hoverValue
  have e1 : (crNode d.text n).start = crOff d.text n.start := by rw [crNode_eq]
  rw [e1, tokenRange_cr hd (fit_of_utf8 hu)]
  cases h1 : e.tokenRange d .AttributeValue n.start o with
  | error x => rfl
  | ok r =>
    cases r with
    | none => rfl
    | some r =>
      obtain ⟨c1, c2⟩ := tokenRange_found (.inr rfl) hu hd hl hl' ht hv hio h1
      simp only [bind, Except.bind]
      rw [c1, c2, scanAttr_cr hd (fit_of_utf8 hu)]

theorem attrHover_off {t a : Str} {r : Range} {o o' : Nat} {l : List Provider}
    (hl : ∀ p ∈ l, p.provideAttributes t o' = p.provideAttributes t o) : e.attrHover t a r o' l = e.attrHover t a r o l := by
  induction l with
  | nil => rfl
  | cons x l ih => simp only [HoverEnv.attrHover, hl x (by simp), ih fun p hp => hl p (by simp [hp])]

theorem hoverInside_cr {n : Node} {t : Str} {o : Nat} {p : Pos} (hu : Utf8 cps d.text) (hd : OtherEnds d d') (hl : Lawful d) (hl' : Lawful d')
    (hq : ∀ p ∈ e.providers, ∀ t i j, p.provideAttributes t i = p.provideAttributes t j) (ho : o ≤ d.text.length)
    {ts : List Tok} (ht : tokens (e.cfg d) (.new n.start .WithinContent) = .ok ts)
    (hv : ∀ t ∈ ts, t.type = .AttributeValue → t.offset ≤ o → o ≤ t.stop → 10 ∉ text d.text t) (hio : n.start ≤ o) :
    e.hoverInside d' p (crNode d.text n) t (crOff d.text o) = e.hoverInside d p n t o := by
  unfold HoverEnv.hoverInside
  have e1 : (crNode d.text n).start = crOff d.text n.start := by rw [crNode_eq]
  rw [e1, tokenRange_cr hd (fit_of_utf8 hu), tokenRange_cr hd (fit_of_utf8 hu), entityRange_cr hd ho, hoverValue_cr hu hd hl hl' ht hv hio]
  cases e.tokenRange d .StartTag n.start o with
  | error x => rfl
  | ok r =>
    cases r with
    | some r => rfl
    | none =>
      simp only [bind, Except.bind]
      cases h2 : e.tokenRange d .AttributeName n.start o with
      | error x => rfl
      | ok r =>
        cases r with
        | some r =>
          obtain ⟨c1, _⟩ := tokenRange_found (.inl rfl) hu hd hl hl' ht hv hio h2
          simp only
          rw [c1]
          cases d.content r with
          | error x => rfl
          | ok c =>
            simp only
            rw [attrHover_off (o := o) (l := e.applicable) (fun q hm => hq q (List.mem_filter.1 hm).1 _ _ _)]
        | none =>
          simp only [hd.text, entityHover_cr]

theorem hover_cr {u : Uni} {cs : Bool} {void : List Str} {roots : List Node} {o : Nat} (hu : Utf8 cps d.text) (hd : OtherEnds d d')
    (hl : Lawful d) (hl' : Lawful d') (hp : parse u cs void d.text = .ok roots)
    (ho : o ≤ d.text.length) (hb : isBoundary d.text o = true)
    (hq : ∀ p ∈ e.providers, ∀ t i j, p.provideAttributes t i = p.provideAttributes t j)
    (ht : ∀ n, InForest roots n → Covers n o → ∃ ts, tokens (e.cfg d) (.new n.start .WithinContent) = .ok ts ∧
      ∀ t ∈ ts, t.type = .AttributeValue → t.offset ≤ o → o ≤ t.stop → 10 ∉ text d.text t) :
    doHover e d' (d.posAt o) (crNodes d.text roots) = doHover e d (d.posAt o) roots := by
  obtain ⟨p1, p2⟩ := offset_crlf hd hl hl' ho hb
  unfold doHover
  dsimp only
  rw [p1, p2, findNodeAt_crNodes]
  cases hf : findNodeAt roots o with
  | none => rfl
  | some x =>
    obtain ⟨n, ps⟩ := x
    obtain ⟨g1, g2⟩ := findNodeAt_mem hp hf
    obtain ⟨ts, t1, t2⟩ := ht n g1 g2
    have hi := fun t => hoverInside_cr (e := e) (n := n) (t := t) (p := d.posAt o) hu hd hl hl' hq ho t1 t2 g2.1
    simp only [Option.map_some, crFound]
    have e1 : (crNode d.text n).tag = n.tag := by rw [crNode_eq]
    have e2 : (crNode d.text n).endTagStart = n.endTagStart.map (crOff d.text) := by rw [crNode_eq]
    rw [e1, e2]
    cases n.tag with
    | none => rfl
    | some t =>
      cases n.endTagStart with
      | none => exact hi t
      | some z =>
        simp only [Option.map_some, ge_iff_le, crOff_le]
        split
        · rw [tokenRange_cr hd (fit_of_utf8 hu)]
        · exact hi t

end

end Html
