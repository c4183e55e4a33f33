import Verif.Spec.Print
import Verif.Spec.Panics
import Verif.Proof.ParseTotal
import Verif.Proof.Restart

/-! # Parsing printed documents -/

namespace Html
open Spec

variable {c : Cfg} {void : List Str} {p : PState} {r : Option PState} {s : Sc}

/-- The next `scan()` panics. -/
def Stuck (c : Cfg) (s : Sc) : Prop :=
  (s.state = .WithinTag ∧ s.hasSpace = true ∧ isBoundary c.src s.pos = false) ∨
  (s.state = .BeforeAttributeValue ∧ s.lastAttr = some b!"type" ∧ OpenQuote (rest c s))

theorem not_stuck (h1 : s.state ≠ .WithinTag) (h2 : s.state ≠ .BeforeAttributeValue) : ¬ Stuck c s := by
  rintro (⟨h, _⟩ | ⟨h, _⟩) <;> contradiction

theorem not_stuck_at {b : Nat} (h : (rest c s).head? = some b) (hb : b < 128) (h2 : s.state ≠ .BeforeAttributeValue) :
    ¬ Stuck c s := by
  rintro (⟨_, _, h3⟩ | ⟨h, _⟩)
  · have : c.src[s.pos]? = some b := by
      unfold rest at h
      rwa [List.head?_drop] at h
    rw [isBoundary_of_get this (by unfold isCont; simp; omega)] at h3
    cases h3
  · contradiction

/-- The parser loop, started in this state, comes to a scanner that panics. -/
inductive Fails (c : Cfg) (void : List Str) : PState → Sc → Prop
  | here {p : PState} {s : Sc} {e : Panic} : scan c s = .error e → s.pos < c.src.length → Stuck c s → Fails c void p s
  | step {p p' : PState} {s s' : Sc} : scan c s = .ok s' → s'.tokenType ≠ .EOS → parseStep c void p s' = .ok p' →
      Fails c void p' s' → Fails c void p s

/-- What the parser loop, started in this state, ends with: a result, or a panic. -/
def Res (c : Cfg) (void : List Str) (p : PState) (s : Sc) : Option PState → Prop
  | some r => ∃ f, parseLoop c void f p s = .ok r
  | none => Fails c void p s

/-- The parser loop, started in this state, ends with `r`. -/
abbrev Out (c : Cfg) (void : List Str) (p : PState) (s : Sc) (r : PState) : Prop := Res c void p s (some r)

theorem Res.step (h : Res c void p s r) (hp : s.pos < c.src.length) (hns : ¬ Stuck c s) :
    ∃ s' p', Step c s s' ∧ parseStep c void p s' = .ok p' ∧ Res c void p' s' r := by
  cases r with
  | none =>
    cases (show Fails c void p s from h) with
    | here _ _ h => exact absurd h hns
    | step h1 _ h2 h3 => exact ⟨_, _, scan_step h1, h2, h3⟩
  | some r =>
    obtain ⟨f, h⟩ := h
    cases f with
    | zero => cases h
    | succ f =>
      unfold parseLoop at h
      obtain ⟨s1, h1, h⟩ := bind_ok h
      have hst := scan_step h1
      split at h
      · rename_i he
        have := hst.eos_iff.1 he
        omega
      · obtain ⟨p1, h2, h⟩ := bind_ok h
        exact ⟨s1, p1, hst, h2, f, h⟩

theorem Res.back {p' : PState} {s' : Sc} (h : Res c void p' s' r) (h1 : scan c s = .ok s') (h2 : s'.tokenType ≠ .EOS)
    (h3 : parseStep c void p s' = .ok p') : Res c void p s r := by
  cases r with
  | none => exact Fails.step h1 h2 h3 h
  | some r =>
    obtain ⟨f, h⟩ := h
    refine ⟨f + 1, ?_⟩
    unfold parseLoop
    simp only [h1, bind, Except.bind, if_neg h2, h3]
    exact h

/-- Two states from which the next scan is the same. -/
theorem Res.same {a b : Sc} (h : Res c void p a r) (hns : ¬ Stuck c a) (he : scan c b = scan c a) :
    Res c void p b r := by
  cases r with
  | none =>
    cases (show Fails c void p a from h) with
    | here _ _ h => exact absurd h hns
    | step h1 h2 h3 h4 => exact Fails.step (he.trans h1) h2 h3 h4
  | some r =>
    obtain ⟨f, h⟩ := h
    refine ⟨f, ?_⟩
    cases f with
    | zero => cases h
    | succ f =>
      unfold parseLoop at h ⊢
      rw [he]
      exact h

theorem Out.done {r : PState} (h : Out c void p s r) (hp : c.src.length ≤ s.pos) : r = p := by
  obtain ⟨f, h⟩ := h
  cases f with
  | zero => cases h
  | succ f =>
    unfold parseLoop at h
    rw [scan_eos hp] at h
    simp [bind, Except.bind, fin] at h
    exact h.symm

theorem Fails.done (h : Fails c void p s) (hp : c.src.length ≤ s.pos) : False := by
  cases h with
  | here _ h => omega
  | step h1 h2 =>
    rw [scan_eos hp] at h1
    cases h1
    exact h2 rfl

theorem parseStep_tok {a b : Sc} (h : a.tok = b.tok) : parseStep c void p a = parseStep c void p b := by
  have h1 : a.tokenType = b.tokenType := congrArg Tok.type h
  have h2 : a.tokenOffset = b.tokenOffset := congrArg Tok.offset h
  have h3 : a.pos = b.pos := congrArg Tok.stop h
  unfold parseStep tokenText Sc.tokenLength Sc.tokenEnd
  rw [h1, h2, h3]

theorem Stuck.eqv {a b : Sc} (h : Stuck c a) (hp : a.pos < c.src.length) (he : Eqv c a b) : Stuck c b := by
  obtain ⟨h1, h2, h3⟩ := he
  rcases h with ⟨h4, h5, h6⟩ | ⟨h4, h5, h6⟩
  · rcases h3 (.inl h4) with ⟨h7, _⟩ | ⟨_, _, _, h7 | h7⟩
    · exact .inl ⟨h1 ▸ h4, h7 ▸ h5, h2 ▸ h6⟩
    · omega
    · exact absurd (.inl ⟨h4, h5, h6⟩) (not_stuck_at h7 (by decide) (by rw [h4]; decide))
  · rcases h3 (.inr (.inr h4)) with ⟨_, _, h7, _⟩ | ⟨h7, _⟩
    · refine .inr ⟨h1 ▸ h4, h7 ▸ h5, ?_⟩
      unfold rest at h6 ⊢
      rw [← h2]; exact h6
    · rw [h4] at h7; cases h7

theorem Fails.eqv {a b : Sc} (h : Fails c void p a) (he : Eqv c a b) : Fails c void p b := by
  induction h generalizing b with
  | @here p a e h1 h2 h3 =>
    rw [scan_eq_internalScan] at h1
    have hr := internalScan_rel he
    rw [h1] at hr
    refine .here (e := e) ?_ (he.2.1 ▸ h2) (h3.eqv h2 he)
    rw [scan_eq_internalScan]
    cases hy : internalScan c b with
    | ok x => rw [hy] at hr; cases hr
    | error x => rw [hy] at hr; cases hr; rfl
  | @step p p' a a' h1 h2 h3 h4 ih =>
    rw [scan_eq_internalScan] at h1
    have hr := internalScan_rel he
    rw [h1] at hr
    cases hy : internalScan c b with
    | error x => rw [hy] at hr; cases hr
    | ok b' =>
      rw [hy] at hr
      cases hr with
      | ok ht hh =>
        refine .step (by rw [scan_eq_internalScan]; exact hy) ?_ (by rw [← parseStep_tok ht]; exact h3)
          (ih ⟨congrArg Tok.state ht, congrArg Tok.stop ht, hh⟩)
        rw [← show a'.tokenType = b'.tokenType from congrArg Tok.type ht]
        exact h2

theorem Res.eqv {a b : Sc} (h : Res c void p a r) (he : Eqv c a b) : Res c void p b r := by
  cases r with
  | none => exact Fails.eqv h he
  | some r =>
  obtain ⟨f, h⟩ := h
  refine ⟨f, ?_⟩
  induction f generalizing p a b with
  | zero => cases h
  | succ f ih =>
    unfold parseLoop at h ⊢
    rw [scan_eq_internalScan] at h ⊢
    have hr := internalScan_rel he
    revert hr h
    generalize internalScan c a = x
    generalize internalScan c b = y
    intro h hr
    cases hr with
    | error e => cases h
    | @ok a b ht hh =>
      have htt : a.tokenType = b.tokenType := congrArg Tok.type ht
      simp only [bind, Except.bind] at h ⊢
      rw [← htt]
      split
      · rename_i h1; rw [if_pos h1] at h; exact h
      · rename_i h1
        rw [if_neg h1, parseStep_tok ht] at h
        split at h
        · cases h
        · rename_i p1 hp1
          exact ih ⟨congrArg Tok.state ht, congrArg Tok.stop ht, hh⟩ h

/-! ### Inversion by state -/

theorem Step.invContent {s' : Sc} (h : Step c s s') (hs : s.state = .WithinContent)
    (hp : s.pos < c.src.length) : StepContent c s s' := by
  cases h <;> first | assumption | (exfalso; omega) | (exfalso; simp_all; done)

theorem Step.invTag {s' : Sc} (h : Step c s s') (hs : s.state = .WithinTag)
    (hp : s.pos < c.src.length) : StepTag c s s' := by
  cases h <;> first | assumption | (exfalso; omega) | (exfalso; simp_all; done)

theorem Step.invEndTag {s' : Sc} (h : Step c s s') (hs : s.state = .WithinEndTag)
    (hp : s.pos < c.src.length) : StepEndTag c s s' := by
  cases h <;> first | assumption | (exfalso; omega) | (exfalso; simp_all; done)

/-! ### Lengths of matches on printed text -/

theorem runLen_exact {q : Nat → Bool} {k t : Str} {x : Nat} (hk : ∀ b ∈ k, b < 128 ∧ q b = true)
    (hx : x < 128) (hq : q x = false) : runLen q (k ++ x :: t) = k.length := by
  induction k with
  | nil =>
    have : isCont x = false := by simp [isCont]; omega
    simp [runLen, this, codePoint, hx, hq]
  | cons b k ih =>
    have hb := hk b (by simp)
    have h1 : isCont b = false := by simp [isCont]; omega
    have := ih (fun b hb => hk b (by simp [hb]))
    simp only [List.cons_append, runLen, h1, Bool.false_eq_true, if_false, codePoint, hb.1, if_true, hb.2,
      this, List.length_cons]
    omega

theorem firstRunLen_exact {q1 q : Nat → Bool} {a : Nat} {k t : Str} {x : Nat} (ha : a < 128)
    (ha1 : q1 a = true) (hk : ∀ b ∈ k, b < 128 ∧ q b = true)
    (hx : x < 128) (hq : q x = false) : firstRunLen q1 q (a :: k ++ x :: t) = k.length + 1 := by
  simp only [List.cons_append, firstRunLen, codePoint, ha, if_true, ha1, runLen_exact hk hx hq]
  omega

/-- The bytes that can follow a name in a tag. -/
def TagSep (x : Nat) : Prop := Space x ∨ x = 62 ∨ x = 47

theorem TagSep.lt {x : Nat} (h : TagSep x) : x < 128 := by
  unfold TagSep Space at h; omega

theorem elementNameLen_exact {u : Uni} {name t : Str} {x : Nat} (hn : TagName name)
    (hx : TagSep x) : elementNameLen u (name ++ x :: t) = name.length := by
  obtain ⟨⟨a, k, rfl, ha⟩, hb⟩ := hn
  unfold elementNameLen
  rw [firstRunLen_exact (nameFirst_of_byte (u := u) ha).1 (nameFirst_of_byte ha).2
    (fun b hm => nameRest_of_byte (hb b (by simp [hm]))) hx.lt
    (by rcases hx with (rfl | rfl | rfl | rfl | rfl) | rfl | rfl <;> rfl)]
  simp

theorem attrNameChar_ascii {b : Nat} (h : 15 < b ∧ b ≠ 32 ∧ b ≠ 34 ∧ b ≠ 39 ∧ b ≠ 60 ∧ b ≠ 62 ∧
    b ≠ 47 ∧ b ≠ 61 ∧ b ≠ 127) (hb : b < 128) : attrNameChar b = true := by
  have h1 : isSpaceCP b = false := by
    simp only [isSpaceCP, Bool.or_eq_false_iff, Bool.and_eq_false_iff, decide_eq_false_iff_not,
      beq_eq_false_iff_ne]
    omega
  simp only [attrNameChar, h1, Bool.false_or, Bool.not_eq_true', Bool.or_eq_false_iff,
    Bool.and_eq_false_iff, decide_eq_false_iff_not, beq_eq_false_iff_ne]
  omega

theorem attrNameLen_exact {k t : Str} {x : Nat} (hk : AttributeName k) (ha : isAscii k)
    (hx0 : x = 61 ∨ TagSep x) : attrNameLen (k ++ x :: t) = k.length := by
  obtain ⟨h0, h⟩ := hk
  cases k with
  | nil => exact absurd rfl h0
  | cons b k =>
    unfold attrNameLen
    have hx : ∀ d ∈ b :: k, d < 128 ∧ attrNameChar d = true :=
      fun d hd => ⟨ha d hd, attrNameChar_ascii (h d hd (ha d hd)) (ha d hd)⟩
    rw [firstRunLen_exact (hx b (by simp)).1 (hx b (by simp)).2
      (fun d hd => hx d (List.mem_cons_of_mem _ hd)) (by rcases hx0 with h | h; omega; exact h.lt)
      (by rcases hx0 with rfl | (rfl | rfl | rfl | rfl | rfl) | rfl | rfl <;> rfl)]
    simp

theorem unquotedLen_exact {w t : Str} {x : Nat} (hw : Bare w) (hx : Space x ∨ x = 62) :
    unquotedLen (w ++ x :: t) = w.length := by
  obtain ⟨h0, h⟩ := hw
  cases w with
  | nil => exact absurd rfl h0
  | cons b k =>
    unfold unquotedLen
    have hq : ∀ d ∈ b :: k, d < 128 ∧ unquotedChar d = true := by
      intro d hd
      have hd := h d hd
      have h1 : isSpaceCP d = false := by
        simp only [isSpaceCP, Bool.or_eq_false_iff, Bool.and_eq_false_iff, decide_eq_false_iff_not,
          beq_eq_false_iff_ne]
        omega
      refine ⟨hd.1, ?_⟩
      simp only [unquotedChar, h1, Bool.false_or, Bool.not_eq_true', Bool.or_eq_false_iff,
        beq_eq_false_iff_ne]
      omega
    rw [firstRunLen_exact (hq b (by simp)).1 (hq b (by simp)).2
      (fun d hd => hq d (List.mem_cons_of_mem _ hd)) (by rcases hx with (h | h | h | h | h) | h <;> omega)
      (by rcases hx with (rfl | rfl | rfl | rfl | rfl) | rfl <;> rfl)]
    simp

theorem isWs_of_space {b : Nat} (h : Space b) : isWs b = true := by
  rcases h with rfl | rfl | rfl | rfl | rfl <;> rfl

theorem isWs_false {b : Nat} (h : ¬ Space b) : isWs b = false := by
  simp only [Space] at h
  simp only [isWs, Bool.or_eq_false_iff, beq_eq_false_iff_ne]
  omega

theorem wsLen_exact {w t : Str} {x : Nat} (hw : Spaces w) (hx : ¬ Space x) : wsLen (w ++ x :: t) = w.length := by
  induction w with
  | nil => simp [wsLen, isWs_false hx]
  | cons b w ih =>
    have := ih fun d hd => hw d (List.mem_cons_of_mem _ hd)
    simp only [List.cons_append, wsLen, isWs_of_space (hw b List.mem_cons_self), if_true, this, List.length_cons]
    omega

theorem untilByte_append {x : Nat} {v t : Str} (h : x ∉ v) :
    untilByte x (v ++ t) = v.length + untilByte x t := by
  induction v with
  | nil => simp
  | cons b v ih =>
    simp only [List.mem_cons, not_or] at h
    simp only [List.cons_append, untilByte, Ne.symm h.1, if_false, ih h.2, List.length_cons]
    omega

theorem untilByte_head {x : Nat} {t : Str} : untilByte x (x :: t) = 0 := by simp [untilByte]

/-! ### One token -/

theorem rest_eq {s : Sc} {x : Str} {i : Nat} (hs : s.pos = i) (h : c.src.drop i = x) : rest c s = x := by
  subst hs; exact h

theorem pos_lt {i : Nat} {b : Nat} {x : Str} (h : c.src.drop i = b :: x) : i < c.src.length := by
  have := congrArg List.length h
  simp at this; omega

theorem drop_add {i n : Nat} {x y : Str} (h : c.src.drop i = x ++ y) (hn : n = x.length) :
    c.src.drop (i + n) = y := by
  rw [← List.drop_drop, h, hn]; simp

/-- A scanner in content state at an offset. -/
structure InText (s : Sc) (i : Nat) : Prop where
  state : s.state = .WithinContent
  pos : s.pos = i

theorem scan_content (hs : s.state = .WithinContent) (hp : s.pos < c.src.length)
    (h : (rest c s).head? ≠ some 60) :
    scan c s = .ok (fin (adv s (untilByte 60 (rest c s))) s.pos .Content none) := by
  rw [scan_eq_internalScan]
  unfold internalScan
  rw [eos_false hp, hs]
  simp only [Bool.false_eq_true, if_false]
  unfold armContent
  rw [peek_eq_head, if_neg h]

theorem Res.text {i : Nat} {t x : Str} (h : Res c void p s r) (hs : InText s i)
    (hd : c.src.drop i = t ++ x) (ht : 60 ∉ t) :
    ∃ s', InText s' (i + t.length) ∧ Res c void p s' r := by
  cases t with
  | nil => exact ⟨s, by simpa using hs, h⟩
  | cons b t =>
    have hp : s.pos < c.src.length := hs.pos ▸ pos_lt hd
    have hr := rest_eq hs.pos hd
    obtain ⟨s1, p1, h1, h2, h3⟩ := h.step hp (not_stuck (by rw [hs.state]; decide) (by rw [hs.state]; decide))
    have h1 := h1.invContent hs.state hp
    simp only [List.mem_cons, not_or] at ht
    have hb : b ≠ 60 := fun e => ht.1 e.symm
    have hu : untilByte 60 (rest c s) = (t.length + 1) + untilByte 60 x := by
      rw [hr, untilByte_append (by simp [ht])]; simp
    cases h1 with
    | startComment h => rw [hr] at h; simp at h; omega
    | startDoctype h => rw [hr] at h; simp [lowerByte] at h; split at h <;> omega
    | endTagOpen h => rw [hr] at h; simp at h; omega
    | startTagOpen h => rw [hr] at h; simp at h; omega
    | content h0 h1 =>
      simp only [parseStep, fin] at h2
      cases h2
      obtain ⟨s2, hs2⟩ : ∃ s2 : Sc, InText s2 (i + (t.length + 1)) :=
        ⟨{ s with pos := i + (t.length + 1) }, hs.state, rfl⟩
      refine ⟨s2, hs2, ?_⟩
      have hst : ∀ n o, (fin (adv s n) o .Content none).state = .WithinContent := fun _ _ => hs.state
      by_cases h0 : untilByte 60 x = 0
      · refine h3.eqv ⟨by rw [hst, hs2.state], ?_, ?_⟩
        · simp only [fin, adv, hu, hs.pos, hs2.pos]; omega
        · intro hh; rw [hst] at hh; simp at hh
      · have hx : rest c s2 = x := rest_eq hs2.pos (drop_add hd (by simp))
        have hxne : x ≠ [] := by rintro rfl; exact h0 rfl
        have hlt : s2.pos < c.src.length := by
          have := congrArg List.length hx
          rw [rest_length] at this
          have := List.length_pos_iff.2 hxne
          omega
        have hh : x.head? ≠ some 60 := by
          cases x with
          | nil => simp
          | cons d x => intro e; simp at e; subst e; exact h0 untilByte_head
        have hsc := scan_content hs2.state hlt (by rw [hx]; exact hh)
        have e : Res c void p (fin (adv s2 (untilByte 60 (rest c s2))) s2.pos .Content none) r := by
          refine h3.eqv ⟨by rw [hst]; exact hs2.state.symm, ?_, ?_⟩
          · simp only [fin, adv, hu, hs.pos, hs2.pos, hx]; omega
          · intro hh; rw [hst] at hh; simp at hh
        exact e.back hsc (by simp [fin]) rfl


theorem untilLit_cons (l : Str) (d : Nat) (z : Str) :
    untilLit l (d :: z) = if l.isPrefixOf (d :: z) then 0 else 1 + untilLit l z := rfl

theorem untilLit_exact {b x : Str} (h : ¬ Occurs b!"-->" b) :
    untilLit b!"-->" (b ++ (b!"-->" ++ x)) = b.length := by
  induction b with
  | nil => simp [untilLit]
  | cons d b ih =>
    have hn : ¬ Occurs b!"-->" b := by
      rintro ⟨u, v, rfl⟩; exact h ⟨d :: u, v, by simp⟩
    have h1 : (b!"-->").isPrefixOf (d :: (b ++ (b!"-->" ++ x))) = false := by
      refine Bool.eq_false_iff.2 fun hp => ?_
      match b, h, hp with
      | [], h, hp => simp at hp
      | [d1], h, hp => simp at hp
      | d1 :: d2 :: b, h, hp =>
        simp at hp
        obtain ⟨rfl, rfl, rfl⟩ := hp
        exact h ⟨[], b, by simp⟩
    rw [List.cons_append, untilLit_cons, h1, if_neg Bool.false_ne_true, ih hn]
    simp [Nat.add_comm]

theorem Res.comment {i : Nat} {b x : Str} (h : Res c void p s r) (hs : InText s i)
    (hd : c.src.drop i = b!"<!--" ++ b ++ b!"-->" ++ x) (hb : ¬ Occurs b!"-->" b) :
    ∃ s', InText s' (i + (b.length + 7)) ∧ Res c void p s' r := by
  have hd : c.src.drop i = b!"<!--" ++ (b ++ (b!"-->" ++ x)) := by simpa using hd
  have hp : s.pos < c.src.length := hs.pos ▸ pos_lt hd
  have hr := rest_eq hs.pos hd
  obtain ⟨s1, p1, h1, h2, h3⟩ := h.step hp (not_stuck (by rw [hs.state]; decide) (by rw [hs.state]; decide))
  have h1 := h1.invContent hs.state hp
  have hd1 := drop_add (n := 4) hd rfl
  cases h1 with
  | startDoctype h => rw [hr] at h; simp [lowerByte] at h
  | endTagOpen h => rw [hr] at h; simp at h
  | startTagOpen h ha hb => rw [hr] at hb; simp at hb
  | content h0 h1 => rw [hr] at h0; simp at h0
  | startComment hx =>
    simp only [parseStep, fin] at h2
    cases h2
    obtain ⟨s2, hs2, hp2, h3⟩ : ∃ s2 : Sc, s2.state = .WithinComment ∧ s2.pos = i + 4 ∧ Res c void p s2 r :=
      ⟨_, rfl, by simp [adv, fin, hs.pos], h3⟩
    clear hx
    -- the comment text
    obtain ⟨s3, hs3, hp3, h4⟩ : ∃ s3 : Sc, s3.state = .WithinComment ∧ s3.pos = i + 4 + b.length ∧
        Res c void p s3 r := by
      cases b with
      | nil => exact ⟨s2, hs2, by simpa using hp2, h3⟩
      | cons d b =>
        have hr2 := rest_eq hp2 hd1
        have hlt : s2.pos < c.src.length := hp2 ▸ pos_lt hd1
        obtain ⟨s4, p4, h4, h5, h6⟩ := h3.step hlt (not_stuck (by rw [hs2]; decide) (by rw [hs2]; decide))
        cases h4 with
        | commentEnd _ _ hx =>
          rw [hr2] at hx
          have := untilLit_exact (x := x) hb
          have e : untilLit b!"-->" (d :: b ++ (b!"-->" ++ x)) = 0 := by
            simp only [List.cons_append, untilLit] at hx ⊢; rw [if_pos hx]
          rw [e] at this; simp at this
        | comment =>
          simp only [parseStep, fin] at h5
          cases h5
          exact ⟨fin (adv s2 _) _ _ _, hs2, by simp only [fin, adv, hp2, hr2]; rw [untilLit_exact hb], h6⟩
        | _ => exfalso; first | omega | (simp_all; done)
    have hd3 := drop_add (n := b.length) hd1 rfl
    have hr3 := rest_eq hp3 hd3
    have hlt : s3.pos < c.src.length := hp3 ▸ pos_lt hd3
    obtain ⟨s4, p4, h5, h6, h7⟩ := h4.step hlt (not_stuck (by rw [hs3]; decide) (by rw [hs3]; decide))
    cases h5 with
    | commentEnd _ _ hx =>
      simp only [parseStep, fin] at h6
      cases h6
      exact ⟨_, ⟨rfl, by simp only [adv, fin, hp3]; omega⟩, h7⟩
    | comment _ _ hx => rw [hr3] at hx; simp at hx
    | _ => exfalso; first | omega | (simp_all; done)


/-! ### Doctypes -/

theorem Res.doctype {i : Nat} {w b x : Str} (h : Res c void p s r) (hs : InText s i)
    (hd : c.src.drop i = b!"<!" ++ w ++ b ++ b!">" ++ x) (hw : asciiLower w = b!"doctype") (hb : 62 ∉ b) :
    ∃ s', InText s' (i + (w.length + b.length + 3)) ∧ Res c void p s' r := by
  have hlen : w.length = 7 := by
    have := congrArg List.length hw
    simpa [asciiLower] using this
  have hd : c.src.drop i = (b!"<!" ++ w) ++ (b ++ (62 :: x)) := by simpa using hd
  have hp : s.pos < c.src.length := hs.pos ▸ pos_lt (b := 60) (x := 33 :: w ++ (b ++ (62 :: x))) (by simpa using hd)
  have hr := rest_eq hs.pos hd
  obtain ⟨s1, p1, h1, h2, h3⟩ := h.step hp (not_stuck (by rw [hs.state]; decide) (by rw [hs.state]; decide))
  have h1 := h1.invContent hs.state hp
  have hd1 := drop_add (n := 9) hd (by simp [hlen])
  have hm : (b!"<!doctype").isPrefixOf ((rest c s).map lowerByte) = true := by
    have : w.map lowerByte = b!"doctype" := hw
    rw [hr]
    simp only [List.map_append, this, List.isPrefixOf_iff_prefix]
    exact List.prefix_append_of_prefix (by exact ⟨[], rfl⟩)
  cases h1 with
  | endTagOpen h => rw [hr] at h; simp at h
  | startComment h =>
    cases w with
    | nil => simp at hlen
    | cons a w =>
      rw [hr] at h
      simp at h
      rw [← h.1] at hw
      simp [asciiLower] at hw
  | startTagOpen _ _ _ h4 => rw [hm] at h4; cases h4
  | content h0 h1 => rw [hr] at h0; simp at h0
  | startDoctype hx =>
    simp only [parseStep, fin] at h2
    cases h2
    obtain ⟨s2, hs2, hp2, h3⟩ : ∃ s2 : Sc, s2.state = .WithinDoctype ∧ s2.pos = i + 9 ∧ Res c void p s2 r :=
      ⟨_, rfl, by simp [adv, fin, hs.pos], h3⟩
    clear hx
    obtain ⟨s3, hs3, hp3, h4⟩ : ∃ s3 : Sc, s3.state = .WithinDoctype ∧ s3.pos = i + 9 + b.length ∧
        Res c void p s3 r := by
      cases b with
      | nil => exact ⟨s2, hs2, by simpa using hp2, h3⟩
      | cons d b =>
        have hr2 := rest_eq hp2 hd1
        have hlt : s2.pos < c.src.length := hp2 ▸ pos_lt hd1
        obtain ⟨s4, p4, h4, h5, h6⟩ := h3.step hlt (not_stuck (by rw [hs2]; decide) (by rw [hs2]; decide))
        cases h4 with
        | doctypeEnd _ _ hx =>
          rw [hr2] at hx
          simp at hx
          simp [hx] at hb
        | doctype =>
          simp only [parseStep, fin] at h5
          cases h5
          exact ⟨fin (adv s2 _) _ _ _, hs2, by
            simp only [fin, adv, hp2, hr2]; rw [untilByte_append hb, untilByte_head]; omega, h6⟩
        | _ => exfalso; first | omega | (simp_all; done)
    have hd3 := drop_add (n := b.length) hd1 rfl
    have hr3 := rest_eq hp3 hd3
    have hlt : s3.pos < c.src.length := hp3 ▸ pos_lt hd3
    obtain ⟨s4, p4, h5, h6, h7⟩ := h4.step hlt (not_stuck (by rw [hs3]; decide) (by rw [hs3]; decide))
    cases h5 with
    | doctypeEnd _ _ hx =>
      simp only [parseStep, fin] at h6
      cases h6
      exact ⟨_, ⟨rfl, by simp only [adv, fin, hp3]; omega⟩, h7⟩
    | doctype _ _ hx => rw [hr3] at hx; simp at hx
    | _ => exfalso; first | omega | (simp_all; done)

/-! ### The content of raw text elements -/

theorem prefix_inside {pat y z : Str} (h60 : 60 ∉ pat) (h : pat.isPrefixOf (y ++ 60 :: z) = true) :
    ∃ y', y = pat ++ y' := by
  induction pat generalizing y with
  | nil => exact ⟨y, rfl⟩
  | cons a pat ih =>
    simp only [List.mem_cons, not_or] at h60
    cases y with
    | nil => simp at h; exact absurd h.1.symm h60.1
    | cons b y =>
      simp at h
      obtain ⟨y', rfl⟩ := ih h60.2 (by simpa using h.2)
      exact ⟨y', by rw [h.1]; rfl⟩

theorem runLen_le_sep {q : Nat → Bool} (hq : q 60 = false) (y z : Str) : runLen q (y ++ 60 :: z) ≤ y.length := by
  induction y with
  | nil => simp [runLen, isCont, codePoint, hq]
  | cons b y ih =>
    simp only [List.cons_append, runLen, List.length_cons]
    split <;> (try split) <;> omega

theorem scriptTailLen_sep (y z : Str) : scriptTailLen (y ++ 60 :: z) ≤ y.length := by
  have h0 : runLen isSpaceCP (y ++ 60 :: z) ≤ y.length := runLen_le_sep rfl y z
  unfold scriptTailLen
  generalize runLen isSpaceCP (y ++ 60 :: z) = n at h0
  dsimp only
  rw [List.drop_append_of_le_length h0]
  have key : ∀ y : Str, (if (y ++ 60 :: z).head? = some 62 then 1 else 0) ≤ y.length := by
    intro y; cases y <;> simp; split <;> omega
  cases hy : y.drop n with
  | nil =>
    have := congrArg List.length hy
    simp at this
    simp; omega
  | cons b y' =>
    have := congrArg List.length hy
    simp at this
    by_cases h : (b :: y' ++ 60 :: z).head? = some 47
    · rw [if_pos h]
      have := key y'
      simp only [List.cons_append, List.drop_succ_cons, List.drop_zero]
      omega
    · rw [if_neg h]
      have := key (b :: y')
      simp only [List.drop_zero]
      simp only [List.length_cons] at this
      omega

theorem scriptFind_exact {body x : Str} (h1 : ¬ Occurs b!"<!--" body) (h2 : ¬ Occurs b!"</script" body) :
    ∃ k i n, scriptFind (body ++ (b!"</script" ++ x)) = some (k, i, n) ∧
      ((k = .scriptClose ∧ i = body.length) ∨
       ((k = .commentClose ∨ k = .scriptOpen) ∧ i + n ≤ body.length)) := by
  induction body with
  | nil => exact ⟨.scriptClose, 0, 8 + scriptTailLen x, by simp [scriptFind, scriptMatchAt], .inl ⟨rfl, rfl⟩⟩
  | cons b body ih =>
    have ho : ∀ {pat : Str}, ¬ Occurs pat (b :: body) → ¬ Occurs pat body := by
      rintro pat h ⟨u, v, rfl⟩; exact h ⟨b :: u, v, by simp⟩
    have hin : ∀ {a : Nat} {q : Str}, 60 ∉ q → (a :: q).isPrefixOf (b :: body ++ (b!"</script" ++ x)) = true →
        ∃ y', b :: body = a :: q ++ y' := by
      intro a q hq h
      rw [List.cons_append] at h
      simp only [List.isPrefixOf, Bool.and_eq_true, beq_iff_eq] at h
      obtain ⟨y', rfl⟩ := prefix_inside hq h.2
      exact ⟨y', by rw [h.1]; rfl⟩
    have hm : scriptFind (b :: body ++ (b!"</script" ++ x)) =
        (match scriptMatchAt (b :: body ++ (b!"</script" ++ x)) with
        | some (k, n) => some (k, 0, n)
        | none => (scriptFind (body ++ (b!"</script" ++ x))).map (fun (k, i, n) => (k, i + 1, n))) := rfl
    rw [hm]
    unfold scriptMatchAt
    by_cases c1 : (b!"<!--").isPrefixOf (b :: body ++ (b!"</script" ++ x)) = true
    · obtain ⟨y', h⟩ := hin (by decide) c1
      exact absurd ⟨[], y', by rw [h]; simp⟩ h1
    rw [if_neg c1]
    by_cases c2 : (b!"-->").isPrefixOf (b :: body ++ (b!"</script" ++ x)) = true
    · obtain ⟨y', h⟩ := hin (by decide) c2
      rw [if_pos c2]
      refine ⟨_, _, _, rfl, .inr ⟨.inl rfl, ?_⟩⟩
      rw [h]; simp
    rw [if_neg c2]
    by_cases c3 : (b!"<script").isPrefixOf (b :: body ++ (b!"</script" ++ x)) = true
    · obtain ⟨y', h⟩ := hin (by decide) c3
      rw [if_pos c3]
      refine ⟨_, _, _, rfl, .inr ⟨.inr rfl, ?_⟩⟩
      rw [h]
      have := scriptTailLen_sep y' (b!"/script" ++ x)
      have e : (60 :: [115, 99, 114, 105, 112, 116] ++ y' ++ (b!"</script" ++ x)).drop 7 = y' ++ 60 :: (b!"/script" ++ x) := by
        simp
      rw [e]
      simp only [List.length_append, List.length_cons, List.length_nil]
      omega
    rw [if_neg c3]
    by_cases c4 : (b!"</script").isPrefixOf (b :: body ++ (b!"</script" ++ x)) = true
    · obtain ⟨y', h⟩ := hin (by decide) c4
      exact absurd ⟨[], y', by rw [h]; simp⟩ h2
    rw [if_neg c4]
    obtain ⟨k, i, n, h, hk⟩ := ih (ho h1) (ho h2)
    rw [h]
    refine ⟨k, i + 1, n, rfl, ?_⟩
    rcases hk with ⟨h1, h2⟩ | ⟨h1, h2⟩
    · exact .inl ⟨h1, by simp [h2]⟩
    · exact .inr ⟨h1, by simp only [List.length_cons]; omega⟩

theorem scriptLoop_exact {f st i : Nat} {body x : Str} {e : ScriptEnd} (hst : st = 1)
    (h : scriptLoop c f st i = .ok e) (hd : c.src.drop i = body ++ (b!"</script" ++ x))
    (h1 : ¬ Occurs b!"<!--" body) (h2 : ¬ Occurs b!"</script" body) : e = .at (i + body.length) := by
  induction f generalizing i body st with
  | zero => cases h
  | succ f ih =>
    unfold scriptLoop at h
    have hlt : i < c.src.length := by
      have := congrArg List.length hd
      simp at this; omega
    rw [if_neg (by omega)] at h
    obtain ⟨r, hr, h⟩ := bind_ok h
    have hr := (sliceStr_ok hr).2.2.2.2
    have hr : r = body ++ (b!"</script" ++ x) := by
      rw [← hd, hr]
      simp [bytesIn]
    subst hr
    obtain ⟨k, j, n, hf, hk⟩ := scriptFind_exact (x := x) h1 h2
    rw [hf] at h
    dsimp only at h
    rcases hk with ⟨rfl, rfl⟩ | ⟨hk, hn⟩
    · dsimp only at h
      rw [if_neg (by omega)] at h
      obtain ⟨q, hq, h⟩ := bind_ok h
      cases h
      have hq := subU_ok hq
      rw [hq.2]
      congr 1; omega
    · have hsuf : ∀ {pat : Str}, ¬ Occurs pat body → ¬ Occurs pat (body.drop (j + n)) := by
        rintro pat h ⟨u, v, e⟩
        exact h ⟨body.take (j + n) ++ u, v, by rw [List.append_assoc, List.append_assoc, ← List.append_assoc u, ← e, List.take_append_drop]⟩
      have hd2 : c.src.drop (i + j + n) = body.drop (j + n) ++ (b!"</script" ++ x) := by
        rw [Nat.add_assoc, ← List.drop_drop, hd, List.drop_append_of_le_length hn]
      have hl : i + j + n + (body.drop (j + n)).length = i + body.length := by simp; omega
      rcases hk with rfl | rfl <;> dsimp only at h
      · have := ih rfl h hd2 (hsuf h1) (hsuf h2)
        rw [this, hl]
      · have := ih (by rw [hst]; rfl) h hd2 (hsuf h1) (hsuf h2)
        rw [this, hl]

/-- A scanner in raw content with nothing in front of the end tag behaves as in content. -/
theorem Res.raw_empty (h : Res c void p s r) (hns : ¬ Stuck c s)
    (hs : internalScan c s = internalScan c { s with state := .WithinContent }) :
    Res c void p { s with state := .WithinContent } r :=
  h.same hns (by rw [scan_eq_internalScan, scan_eq_internalScan, hs])

theorem Res.script {i : Nat} {body x : Str} (h : Res c void p s r) (hs : s.state = .WithinScriptContent)
    (hp : s.pos = i) (hd : c.src.drop i = body ++ (b!"</script" ++ x))
    (h1 : ¬ Occurs b!"<!--" body) (h2 : ¬ Occurs b!"</script" body) :
    ∃ s', InText s' (i + body.length) ∧ Res c void p s' r := by
  have hlt : s.pos < c.src.length := by
    have := congrArg List.length hd
    simp at this; omega
  obtain ⟨s1, p1, hst, hps, hout⟩ := h.step hlt (not_stuck (by rw [hs]; decide) (by rw [hs]; decide))
  cases hst with
  | script q st _ _ hq hl hst =>
    simp only [parseStep, fin] at hps
    cases hps
    rcases hst with ⟨rfl, hst⟩ | ⟨rfl, rfl, hst⟩
    · have := scriptLoop_exact rfl hst (by rw [hp]; exact hd) h1 h2
      cases this
      exact ⟨_, ⟨rfl, by rw [← hp]; rfl⟩, hout⟩
    · have := scriptLoop_exact rfl hst (by rw [hp]; exact hd) h1 h2
      cases this
  | scriptContent s' _ _ hl hx =>
    have := scriptLoop_exact rfl hl (by rw [hp]; exact hd) h1 h2
    simp only [ScriptEnd.at.injEq] at this
    refine ⟨_, ⟨rfl, ?_⟩, h.raw_empty (not_stuck (by rw [hs]; decide) (by rw [hs]; decide)) ?_⟩
    · show s.pos = _; omega
    · unfold internalScan
      have e : eos c { s with state := .WithinContent } = eos c s := rfl
      rw [e, eos_false hlt, hs]
      simp only [Bool.false_eq_true, if_false]
      unfold armScript internalContent
      rw [hl]
      simp only [bind, Except.bind]
      rw [if_neg (by omega)]
      have e : eos c { s with pos := s.pos, state := .WithinContent } = eos c s := rfl
      rw [e, eos_false hlt]
      rfl
  | _ => exfalso; first | omega | (simp_all; done)

theorem untilLit_style {b x : Str} (h : ¬ Occurs b!"</style" b) :
    untilLit b!"</style" (b ++ (b!"</style" ++ x)) = b.length := by
  induction b with
  | nil => simp [untilLit]
  | cons d b ih =>
    have hn : ¬ Occurs b!"</style" b := by
      rintro ⟨u, v, rfl⟩; exact h ⟨d :: u, v, by simp⟩
    have h1 : (b!"</style").isPrefixOf (d :: (b ++ (b!"</style" ++ x))) = false := by
      refine Bool.eq_false_iff.2 fun hp => ?_
      simp only [List.isPrefixOf, Bool.and_eq_true, beq_iff_eq] at hp
      obtain ⟨y', rfl⟩ := prefix_inside (pat := b!"/style") (z := b!"/style" ++ x) (by decide) hp.2
      exact h ⟨[], y', by rw [← hp.1]; rfl⟩
    rw [List.cons_append, untilLit_cons, h1, if_neg Bool.false_ne_true, ih hn]
    simp [Nat.add_comm]

theorem Res.style {i : Nat} {body x : Str} (h : Res c void p s r) (hs : s.state = .WithinStyleContent)
    (hp : s.pos = i) (hd : c.src.drop i = body ++ (b!"</style" ++ x))
    (h1 : ¬ Occurs b!"</style" body) :
    ∃ s', InText s' (i + body.length) ∧ Res c void p s' r := by
  have hlt : s.pos < c.src.length := by
    have := congrArg List.length hd
    simp at this; omega
  have hr := rest_eq hp hd
  have hu : untilLit b!"</style" (rest c s) = body.length := by rw [hr, untilLit_style h1]
  obtain ⟨s1, p1, hst, hps, hout⟩ := h.step hlt (not_stuck (by rw [hs]; decide) (by rw [hs]; decide))
  cases hst with
  | style =>
    simp only [parseStep, fin] at hps
    cases hps
    exact ⟨_, ⟨rfl, by simp only [fin, adv, hu, hp]⟩, hout⟩
  | styleContent s' _ _ hb h0 hx =>
    refine ⟨_, ⟨rfl, ?_⟩, h.raw_empty (not_stuck (by rw [hs]; decide) (by rw [hs]; decide)) ?_⟩
    · show s.pos = _; omega
    · unfold internalScan
      have e : eos c { s with state := .WithinContent } = eos c s := rfl
      rw [e, eos_false hlt, hs]
      simp only [Bool.false_eq_true, if_false]
      unfold armStyle internalContent
      rw [sliceFrom_eq hb]
      simp only [bind, Except.bind, h0, adv, Nat.add_zero]
      rw [if_neg (by omega)]
      have e : eos c { s with pos := s.pos, state := .WithinContent } = eos c s := rfl
      rw [e, eos_false hlt]
      rfl
  | _ => exfalso; first | omega | (simp_all; done)

/-! ### Start tags -/

/-- A scanner inside a start tag, behind the name or an attribute. -/
structure InOpen (s : Sc) (i : Nat) (sp : Bool) (lt : Str) (ty : Option Str) : Prop where
  state : s.state = .WithinTag ∨ s.state = .AfterAttributeName
  pos : s.pos = i
  space : s.hasSpace = sp
  last : s.lastTag = some lt
  type : s.lastType = ty

theorem InOpen.state_ne {i : Nat} {sp : Bool} {lt : Str} {ty : Option Str} (h : InOpen s i sp lt ty) :
    s.state ≠ .BeforeAttributeValue := by
  rcases h.state with h | h <;> rw [h] <;> decide

theorem Step.invOpen {s' : Sc} (h : Step c s s') (hs : s.state = .WithinTag ∨ s.state = .AfterAttributeName)
    (hp : s.pos < c.src.length) (hw : wsLen (rest c s) = 0) (he : (rest c s).head? ≠ some 61) :
    StepTag c { s with state := .WithinTag } s' := by
  rcases hs with hs | hs
  · have := h.invTag hs hp
    have e : { s with state := .WithinTag } = s := by rw [← hs]
    rw [e]; exact this
  · cases h <;> first | assumption | (exfalso; omega) | (exfalso; simp_all; done)

theorem Spec.TagName.ascii {name : Str} (h : TagName name) : ∀ b ∈ name, b < 128 :=
  fun b hb => (nameRest_of_byte (u := ⟨fun _ => false, id⟩) (h.2 b hb)).1

theorem Spec.LegalName.ascii {name : Str} (h : LegalName name) : ∀ b ∈ name, b < 128 := h.1.ascii

/-- The name as the scanner remembers it. -/
def keptName (c : Cfg) (name : Str) : Str := if c.caseSensitive then name else toLower c.uni name

theorem keptName_ascii {name : Str} (h : isAscii name) :
    keptName c name = name ∨ keptName c name = asciiLower name := by
  have ha : name.all (· < 128) = true := by simpa [isAscii] using h
  have hl : toLower c.uni name = asciiLower name := by
    simp only [toLower, ha, if_true]; rfl
  unfold keptName
  cases c.caseSensitive
  · simp [hl]
  · simp

theorem keptName_lower {name : Str} (h : isAscii name) (hl : asciiLower name = name) : keptName c name = name := by
  rcases keptName_ascii (c := c) h with e | e
  · exact e
  · rw [e, hl]

theorem keptName_ne {name w : Str} (h : isAscii name) (hw : asciiLower w = w) (hn : asciiLower name ≠ w) :
    keptName c name ≠ w := by
  rcases keptName_ascii (c := c) h with e | e <;> rw [e]
  · rintro rfl; exact hn hw
  · exact hn

theorem Res.openTag {i y : Nat} {name x : Str} (h : Res c void p s r) (hs : InText s i)
    (hd : c.src.drop i = b!"<" ++ name ++ y :: x) (hn : TagName name)
    (hy : TagSep y) :
    ∃ s' p', InOpen s' (i + (name.length + 1)) false (keptName c name) none ∧ Res c void p' s' r ∧
      p'.cur = { Node.new i c.src.length [] with tag := some name } ∧
      p'.parents = p.cur :: p.parents := by
  have hd : c.src.drop i = b!"<" ++ (name ++ y :: x) := by simpa using hd
  have hp : s.pos < c.src.length := hs.pos ▸ pos_lt hd
  have hr := rest_eq hs.pos hd
  obtain ⟨s1, p1, h1, h2, h3⟩ := h.step hp (not_stuck (by rw [hs.state]; decide) (by rw [hs.state]; decide))
  have h1 := h1.invContent hs.state hp
  have hd1 := drop_add (n := 1) hd rfl
  have hlen := elementNameLen_exact (u := c.uni) (t := x) hn hy
  obtain ⟨⟨a, k, e, ha⟩, hn2⟩ := id hn
  have h47 : a ≠ 47 := by rintro rfl; revert ha; simp [NameStartByte, alnum]
  have h33 : lowerByte a ≠ 33 := by
    unfold lowerByte; intro e; split at e
    · omega
    · subst e; revert ha; simp [NameStartByte, alnum]
  have h33' : a ≠ 33 := by rintro rfl; revert ha; simp [NameStartByte, alnum]
  cases h1 with
  | startComment h => rw [hr, e] at h; simp at h; omega
  | startDoctype h => rw [hr, e] at h; simp [lowerByte] at h; unfold lowerByte at h33; omega
  | endTagOpen h => rw [hr, e] at h; simp at h; omega
  | content h0 h1 => rw [hr] at h0; simp at h0
  | startTagOpen =>
    simp only [parseStep, fin] at h2
    cases h2
    obtain ⟨s2, hs2, hp2, h3⟩ : ∃ s2 : Sc, s2.state = .AfterOpeningStartTag ∧ s2.pos = i + 1 ∧
      Res c void { p with cur := Node.new i c.src.length [], parents := p.cur :: p.parents } s2 r :=
      ⟨_, rfl, by simp [adv, fin, hs.pos], hs.pos ▸ h3⟩
    have hr2 := rest_eq hp2 hd1
    have hlt : s2.pos < c.src.length := by
      rw [hp2]; rw [e] at hd1; exact pos_lt hd1
    obtain ⟨s4, p4, h4, h5, h6⟩ := h3.step hlt (not_stuck (by rw [hs2]; decide) (by rw [hs2]; decide))
    have hpos : 0 < name.length := by rw [e]; simp
    cases h4 with
    | startTagName _ _ hb h0 =>
      simp only [parseStep, fin] at h5
      obtain ⟨t, ht, h5⟩ := bind_ok h5
      cases h5
      have ht := (sliceStr_ok ht).2.2.2.2
      simp only [adv] at ht
      rw [hr2, hlen, bytesIn_eq_take, hp2, hd1] at ht
      simp at ht
      subst ht
      refine ⟨_, _, ⟨.inl rfl, ?_, rfl, ?_, rfl⟩, h6, rfl, rfl⟩
      · simp only [fin, adv, hr2, hlen, hp2]; omega
      · simp only [fin, hr2, hlen, List.take_left']
        simp [keptName]
    | startTagWs _ _ _ h0 => rw [hr2, hlen] at h0; omega
    | startTagNoName _ _ _ h0 => rw [hr2, hlen] at h0; omega
    | startTagImmediate _ _ _ h0 => rw [hr2, hlen] at h0; omega
    | _ => exfalso; first | omega | (simp_all; done)

/-- White space in a start tag. -/
theorem Res.gap {i y : Nat} {w x lt : Str} {ty : Option Str} {sp : Bool} (h : Res c void p s r)
    (hs : InOpen s i sp lt ty) (hd : c.src.drop i = w ++ y :: x) (hw : Spaces w) (hne : w ≠ []) (hy : ¬ Space y) :
    ∃ s', InOpen s' (i + w.length) true lt ty ∧ Res c void p s' r := by
  have hp : s.pos < c.src.length := by
    have := congrArg List.length hd
    have := hs.pos
    simp at *; omega
  have hr := rest_eq hs.pos hd
  have hl : wsLen (rest c s) = w.length := by rw [hr, wsLen_exact hw hy]
  have h0 : 0 < w.length := List.length_pos_iff.2 hne
  have hhead : ∃ b z, w = b :: z ∧ Space b := by
    cases w with
    | nil => exact absurd rfl hne
    | cons b z => exact ⟨b, z, rfl, hw b List.mem_cons_self⟩
  obtain ⟨b, z, e, hb⟩ := hhead
  have hhd : (rest c s).head? = some b := by rw [hr, e]; rfl
  obtain ⟨s1, p1, h1, h2, h3⟩ := h.step hp (not_stuck_at hhd (by unfold Space at hb; omega) hs.state_ne)
  rcases hs.state with hst | hst
  · have h1 := h1.invTag hst hp
    cases h1 with
    | ws =>
      simp only [parseStep, fin] at h2
      cases h2
      refine ⟨_, ⟨?_, ?_, ?_, ?_, ?_⟩, h3⟩
      · exact .inl hst
      · simp only [fin, adv, hl, hs.pos]
      · rfl
      · exact hs.last
      · exact hs.type
    | attrName _ hx => omega
    | selfClose _ _ h => 
      rw [hr, e] at h; simp at h; unfold Space at hb; omega
    | close _ _ h => rw [hhd] at h; cases h; unfold Space at hb; omega
    | pseudo _ _ _ h => rw [hhd] at h; cases h; unfold Space at hb; omega
    | unknown _ _ h => omega
  · cases h1 with
    | afterNameWs =>
      simp only [parseStep, fin] at h2
      cases h2
      refine ⟨_, ⟨?_, ?_, ?_, ?_, ?_⟩, h3⟩
      · exact .inr hst
      · simp only [fin, adv, hl, hs.pos]
      · rfl
      · exact hs.last
      · exact hs.type
    | _ => exfalso; first | omega | (simp_all; done)

theorem attrInsert_new {m : List (Str × Attr)} {k : Str} {v : Attr} (h : k ∉ m.map (·.1)) :
    attrInsert m k v = m ++ [(k, v)] := by
  induction m with
  | nil => rfl
  | cons y m ih =>
    simp only [List.map_cons, List.mem_cons, not_or] at h
    simp [attrInsert, Ne.symm h.1, ih h.2]

theorem attrSetValue_last {m : List (Str × Attr)} {k w : Str} {v : Attr} (h : k ∉ m.map (·.1)) :
    attrSetValue (m ++ [(k, v)]) k w = .ok (m ++ [(k, { v with value := some w })]) := by
  induction m with
  | nil => simp [attrSetValue]
  | cons y m ih =>
    simp only [List.map_cons, List.mem_cons, not_or] at h
    simp [attrSetValue, Ne.symm h.1, ih h.2, bind, Except.bind]

/-- What the scanner remembers as the type of an element behind an attribute. -/
structure TypeStep (c : Cfg) (a : AttrText) (ty ty' : Option Str) : Prop where
  other : keptName c a.name ≠ b!"type" → ty' = ty
  noValue : a.value = none → ty' = ty
  value : keptName c a.name = b!"type" → ValueWritten a.value → ty'.isSome
  empty : keptName c a.name = b!"type" → a.value ≠ none → ¬ ValueWritten a.value → ty = none → ty' = none

theorem spaces_head {y : Nat} (h : TagSep y) : y ≠ 61 := by unfold TagSep Space at h; omega

/-- The name of an attribute. -/
theorem Res.attrName {i y : Nat} {k x lt : Str} {ty : Option Str} (h : Res c void p s r)
    (hs : InOpen s i true lt ty) (hd : c.src.drop i = k ++ y :: x)
    (hk : AttributeName k) (hka : isAscii k) (hy : y = 61 ∨ TagSep y) (hn : k ∉ p.cur.attributes.map (·.1)) :
    ∃ s' p', InOpen s' (i + k.length) false lt ty ∧ s'.state = .AfterAttributeName ∧
      s'.lastAttr = some (keptName c k) ∧ Res c void p' s' r ∧ p'.pending = some k ∧
      p'.cur = { p.cur with attributes := p.cur.attributes ++ [(k, ⟨none, i⟩)] } ∧
      p'.parents = p.parents := by
  obtain ⟨a, k', e⟩ : ∃ a k', k = a :: k' := by cases k <;> simp_all [AttributeName]
  have hx := hk.2 a (by simp [e]) (hka a (by simp [e]))
  have hp : s.pos < c.src.length := by rw [hs.pos]; rw [e] at hd; exact pos_lt hd
  have hr := rest_eq hs.pos hd
  obtain ⟨s3, p1, h1, h2, h3⟩ := h.step hp (not_stuck_at (by rw [hr, e]; rfl) (hka a (by simp [e])) hs.state_ne)
  have hw : wsLen (rest c s) = 0 := by
    rw [hr, e]; simp only [List.cons_append, wsLen]
    rw [isWs_false (by unfold Space; omega)]; rfl
  have h1 := h1.invOpen hs.state hp hw (by rw [hr, e]; simp; omega)
  have hr' : rest c { s with state := .WithinTag } = rest c s := rfl
  have hl : attrNameLen (rest c s) = k.length := by rw [hr]; exact attrNameLen_exact hk hka hy
  have hk0 : 0 < k.length := by rw [e]; simp
  have hpre : ∀ s', ¬ TagPre c { s with state := .WithinTag } s' := by
    intro s' h; cases h with
    | noSpace h => have := hs.space; simp_all
    | equals _ _ h => rw [hr'] at h; omega
    | other _ _ h => rw [hr'] at h; omega
  cases h1 with
  | ws h => rw [hr'] at h; omega
  | selfClose _ h => exact absurd h (hpre _)
  | close _ h => exact absurd h (hpre _)
  | pseudo _ h => exact absurd h (hpre _)
  | unknown _ h => exact absurd h (hpre _)
  | attrName hx =>
    simp only [parseStep, fin] at h2
    obtain ⟨t, ht, h2⟩ := bind_ok h2
    cases h2
    have ht := (sliceStr_ok ht).2.2.2.2
    simp only [adv, hr'] at ht
    rw [hl, bytesIn_eq_take, hs.pos, hd] at ht
    simp at ht
    subst ht
    refine ⟨_, _, ⟨?_, ?_, ?_, ?_, ?_⟩, ?_, ?_, h3, ?_, ?_, ?_⟩
    · exact .inr rfl
    · show s.pos + attrNameLen (rest c s) = _
      rw [hl, hs.pos]
    · rfl
    · exact hs.last
    · exact hs.type
    · rfl
    · show some (if c.caseSensitive then (rest c s).take (attrNameLen (rest c s))
        else toLower c.uni ((rest c s).take (attrNameLen (rest c s)))) = _
      rw [hl, hr, List.take_left]; rfl
    · rfl
    · simp only [attrInsert_new hn, hs.pos]
    · rfl

/-- Behind `=`, without a value, scanning goes on as behind a value. -/
theorem scan_no_value {y : Nat} {x : Str} (hs : s.state = .BeforeAttributeValue) (hp : s.pos < c.src.length)
    (hr : rest c s = [] ++ y :: x) (hy : Space y ∨ y = 62) :
    scan c { s with state := .WithinTag, hasSpace := false } = scan c s := by
  rw [scan_eq_internalScan, scan_eq_internalScan]
  have he : eos c s = false := by simp [eos]; omega
  have he' : eos c { s with state := SS.WithinTag, hasSpace := false } = false := he
  have hr' : rest c { s with state := SS.WithinTag, hasSpace := false } = y :: x := hr
  have hr : rest c s = y :: x := hr
  unfold internalScan
  rw [he, he', hs]
  simp only [Bool.false_eq_true, if_false]
  rcases hy with hy | rfl
  · have hw : 0 < wsLen (y :: x) := by simp [wsLen, isWs_of_space hy]; omega
    unfold armTag armBeforeAttributeValue
    rw [hr, hr']
    simp only [gt_iff_lt, hw, if_true]
    rfl
  · have hw : wsLen (62 :: x) = 0 := by simp [wsLen, isWs]
    have hpk : peek c s = some 62 := by
      unfold peek
      have := congrArg List.head? hr
      unfold rest at this
      rw [List.head?_drop] at this
      exact this
    have hsl : sliceFrom c s = .ok (62 :: x) := by
      unfold sliceFrom sliceStr
      have hb : isBoundary c.src s.pos = true := by
        unfold isBoundary
        unfold peek at hpk
        rw [hpk]
        simp [isCont]
      have hb2 : isBoundary c.src c.src.length = true := by simp [isBoundary]
      rw [hb, hb2, if_pos (by simp; omega), List.take_length]
      exact congrArg _ hr
    conv => rhs; unfold armBeforeAttributeValue
    rw [hr]
    simp only [hw, gt_iff_lt, Nat.lt_irrefl, if_false, hsl, bind, Except.bind]
    rw [if_pos (by simp [unquotedLen, firstRunLen, codePoint, unquotedChar])]
    unfold armQuotedValue
    rw [hpk]
    simp only
    rw [if_neg (by omega)]
    unfold internalTag
    rw [he']
    rfl

theorem Res.attr {i y : Nat} {x lt : Str} {ty : Option Str} {a : AttrText} (h : Res c void p s r)
    (hs : InOpen s i false lt ty) (hd : c.src.drop i = a.print ++ y :: x) (ha : a.Legal) (hy : TagSep y)
    (hy2 : y = 47 → ∀ w, a.value = some w → Quoted w)
    (hn : a.name ∉ p.cur.attributes.map (·.1)) :
    ∃ s' p' ty', InOpen s' (i + a.print.length) false lt ty' ∧ TypeStep c a ty ty' ∧ Res c void p' s' r ∧
      p'.cur = { p.cur with attributes := p.cur.attributes ++ [(a.name, ⟨a.value, i + a.gap.length⟩)] } ∧
      p'.parents = p.parents := by
  obtain ⟨w, k, v⟩ := a
  obtain ⟨hw0, hw, hk, hka, hv⟩ := ha
  dsimp only at hw0 hw hk hka hv hy2 hn ⊢
  obtain ⟨a, k', e⟩ : ∃ a k', k = a :: k' := by cases k <;> simp_all [AttributeName]
  have hx := hk.2 a (by simp [e]) (hka a (by simp [e]))
  have hsp : ¬ Space a := by unfold Space; omega
  cases v with
  | none =>
    have hd : c.src.drop i = w ++ (k ++ y :: x) := by simpa [AttrText.print] using hd
    have hd1 := drop_add (n := w.length) hd rfl
    obtain ⟨s1, hs1, h1⟩ := h.gap (y := a) (x := k' ++ y :: x) hs (by rw [hd, e]; simp) hw hw0 hsp
    obtain ⟨s2, p2, hs2, -, -, h2, -, hc, hp⟩ := h1.attrName hs1 hd1 hk hka (.inr hy) hn
    refine ⟨s2, p2, ty, ?_, ⟨fun _ => rfl, fun _ => rfl, ?_, ?_⟩, h2, hc, hp⟩
    · simpa [AttrText.print, Nat.add_assoc] using hs2
    · rintro - ⟨w, h, -⟩; cases h
    · intro _ h; exact absurd rfl h
  | some v =>
    have hv := hv v rfl
    have hd : c.src.drop i = w ++ (k ++ 61 :: (v ++ y :: x)) := by simpa [AttrText.print] using hd
    have hd1 := drop_add (n := w.length) hd rfl
    obtain ⟨s1, hs1, h1⟩ := h.gap (y := a) (x := k' ++ 61 :: (v ++ y :: x)) hs (by rw [hd, e]; simp) hw hw0 hsp
    obtain ⟨s2, p2, hs2, hst2, hla2, h2, hpend, hcur, hpar⟩ := h1.attrName hs1 hd1 hk hka (.inl rfl) hn
    have hd2 := drop_add (n := k.length) hd1 rfl
    generalize hj : i + w.length = j at hs1 hd1 hs2 hd2 hcur
    -- equals sign
    obtain ⟨s3, p3, h, ha, hb, hdd, hty, hla, he, hpend, hcur, hpar⟩ : ∃ (s3 : Sc) (p3 : PState), Res c void p3 s3 r ∧
        s3.state = .BeforeAttributeValue ∧
        s3.pos = j + k.length + 1 ∧ s3.lastTag = some lt ∧ s3.lastType = ty ∧ s3.lastAttr = some (keptName c k) ∧
        c.src.drop (j + k.length + 1) = v ++ y :: x ∧ p3.pending = some k ∧
        p3.cur = { p.cur with attributes := p.cur.attributes ++ [(k, ⟨some [], j⟩)] } ∧
        p3.parents = p.parents := by
      have hp : s2.pos < c.src.length := hs2.pos ▸ pos_lt hd2
      have hr := rest_eq hs2.pos hd2
      obtain ⟨s3, p1, h1, h2, h3⟩ := h2.step hp (not_stuck (by rw [hst2]; decide) (by rw [hst2]; decide))
      have hw : wsLen (rest c s2) = 0 := by rw [hr]; simp [wsLen, isWs]
      cases h1 with
      | assign =>
        simp only [parseStep, fin, hpend, hcur, attrSetValue_last hn, bind, Except.bind] at h2
        cases h2
        exact ⟨_, _, h3, rfl, by simp [fin, adv, hs2.pos], hs2.last, hs2.type, hla2, drop_add (x := [61]) hd2 rfl, rfl, rfl, hpar⟩
      | afterNameTag _ _ _ _ h0 => rw [hr] at h0; simp at h0
      | _ => exfalso; first | omega | (simp_all; done)
    have hp : s3.pos < c.src.length := by
      have := congrArg List.length he
      simp at this; omega
    have hr := rest_eq hb he
    have hns : ¬ Stuck c s3 := by
      rintro (⟨h, _⟩ | ⟨_, _, q', v', b', h1, h2, h3, _⟩)
      · rw [ha] at h; cases h
      · rw [hr] at h2
        rcases hv with ⟨q, u, hq, hu, rfl⟩ | hbare | rfl
        · simp only [List.append_assoc, List.cons_append, List.nil_append, List.cons.injEq] at h2
          apply h3
          rw [← h2.2, ← h2.1]
          simp
        · obtain ⟨v0, v1, ev⟩ := List.exists_cons_of_ne_nil hbare.1
          have := hbare.2 v0 (by rw [ev]; simp)
          rw [ev] at h2
          simp only [List.cons_append, List.cons.injEq] at h2
          omega
        · simp only [List.nil_append, List.cons.injEq] at h2
          unfold TagSep Space at hy
          omega
    obtain ⟨s4, p1, h1, h2, h3⟩ := h.step hp hns
    have hlen : j + k.length + 1 + v.length = i + (AttrText.mk w k (some v)).print.length := by
      simp [AttrText.print]; omega
    rcases hv with ⟨q, u, hq, hu, rfl⟩ | hbare | rfl
    · have hsq : ¬ Space q := by unfold Space; omega
      have hr : rest c s3 = q :: (u ++ q :: (y :: x)) := by rw [hr]; simp
      have hw : wsLen (rest c s3) = 0 := by rw [hr]; simp [wsLen, isWs_false hsq]
      have hul : unquotedLen (rest c s3) = 0 := by
        rw [hr]; rcases hq with rfl | rfl <;> simp [unquotedLen, firstRunLen, codePoint, unquotedChar]
      cases h1 with
      | valueQuoted _ _ _ _ _ q' hq' hx' =>
        rw [hr] at hx'
        simp at hx'
        subst hx'
        have hql : quotedLen q (rest c s3) = u.length + 2 := by
          rw [hr]
          simp only [quotedLen, List.drop_succ_cons, List.drop_zero, untilByte_append hu, untilByte_head]
          rw [if_pos (by simp; omega)]; omega
        simp only [parseStep, fin] at h2
        obtain ⟨t, ht, h2⟩ := bind_ok h2
        have ht := (sliceStr_ok ht).2.2.2.2
        simp only [adv] at ht
        have ee : ([q] ++ u ++ [q] ++ y :: x).take (u.length + 2) = [q] ++ u ++ [q] :=
          List.take_left' (by simp)
        rw [hql, bytesIn_eq_take, hb, he, ee] at ht
        subst ht
        simp only [hpend, hcur, attrSetValue_last hn, bind, Except.bind] at h2
        cases h2
        have hqt : quotedType c s3.pos (s3.pos + quotedLen q (rest c s3)) = u := by
          unfold quotedType
          rw [hql, if_neg (by omega), hb, show j + k.length + 1 + (u.length + 2) - 1 = j + k.length + 1 + 1 + u.length by omega,
            bytesIn_eq_take, ← List.drop_drop, he]
          simp
        refine ⟨_, _, typeAfter s3 u, ⟨?_, ?_, ?_, ?_, ?_⟩, ?_, h3, ?_, hpar⟩
        · exact .inl rfl
        · rw [← hlen]; simp only [fin, adv, hql, hb]; simp
        · rfl
        · exact hdd
        · simp only [fin, hqt]
        · have hval : ValueWritten (some ([q] ++ u ++ [q])) ↔ u ≠ [] := by
            constructor
            · rintro ⟨w, e, -, h1, h2⟩ rfl
              cases e
              rcases hq with rfl | rfl
              · exact h1 rfl
              · exact h2 rfl
            · intro hu0
              refine ⟨_, rfl, by simp, ?_, ?_⟩ <;> (intro e; have := congrArg List.length e; simp at this; exact hu0 this)
          unfold typeAfter
          rw [hla, hty]
          refine ⟨fun h => ?_, fun h => ?_, fun h hv => ?_, fun h _ hv _ => ?_⟩
          · dsimp only at h; rw [if_neg (by simpa using h)]
          · cases h
          · dsimp only at h hv
            rw [if_pos (by rw [h])]
            have := hval.1 hv
            unfold nonEmpty
            rw [if_pos (by simpa using this)]; rfl
          · dsimp only at h hv
            rw [if_pos (by rw [h])]
            have : u = [] := Classical.byContradiction fun h => hv (hval.2 h)
            subst this; rfl
        · simp only [hj]
      | valueTag _ _ _ _ _ _ h1 => rw [hr] at h1; simp at h1; omega
      | _ => exfalso; first | omega | (simp_all; done)
    · have hy3 : Space y ∨ y = 62 := by
        rcases hy with h | h | h
        · exact .inl h
        · exact .inr h
        · obtain ⟨q, u, hq, hu, e⟩ := hy2 h v rfl
          have := hbare.2 q (by simp [e])
          omega
      have hul : unquotedLen (rest c s3) = v.length := by rw [hr]; exact unquotedLen_exact hbare hy3
      have hv0 : 0 < v.length := List.length_pos_iff.2 hbare.1
      have hw : wsLen (rest c s3) = 0 := by
        rw [hr]
        cases v with
        | nil => simp at hv0
        | cons b v =>
          have := hbare.2 b (by simp)
          simp only [List.cons_append, wsLen]
          rw [isWs_false (by unfold Space; omega)]; rfl
      cases h1 with
      | valueUnquoted =>
        have hfl : unquotedFullLen (rest c s3) = v.length := by
          unfold unquotedFullLen
          rw [hul, hr]
          dsimp only
          rw [List.drop_left]
          rw [if_neg]
          simp only [List.head?_cons, Option.some.injEq]
          unfold Space at hy3
          omega
        simp only [parseStep, fin] at h2
        obtain ⟨t, ht, h2⟩ := bind_ok h2
        have ht := (sliceStr_ok ht).2.2.2.2
        simp only [adv] at ht
        rw [hfl, bytesIn_eq_take, hb, he, List.take_left] at ht
        rw [ht] at h2
        simp only [hpend, hcur, attrSetValue_last hn, bind, Except.bind] at h2
        cases h2
        refine ⟨_, _, typeAfter s3 v, ⟨?_, ?_, ?_, ?_, ?_⟩, ?_, h3, ?_, hpar⟩
        · exact .inl rfl
        · rw [← hlen]; simp only [fin, adv, hfl, hb]
        · rfl
        · exact hdd
        · simp only [fin]
          rw [hfl, bytesIn_eq_take, hb, he, List.take_left]
        · have hval : ValueWritten (some v) := by
            refine ⟨v, rfl, hbare.1, ?_, ?_⟩ <;> (rintro rfl; have := hbare.2; simp at this)
          unfold typeAfter
          rw [hla, hty]
          refine ⟨fun h => ?_, fun h => ?_, fun h hv => ?_, fun h _ hv _ => absurd hval hv⟩
          · dsimp only at h; rw [if_neg (by simpa using h)]
          · cases h
          · dsimp only at h hv
            rw [if_pos (by rw [h])]
            unfold nonEmpty
            rw [if_pos (by omega)]; rfl
        · simp only [hj]
      | valueTag _ _ _ _ _ h0 => omega
      | valueQuoted _ _ _ _ h0 => omega
      | _ => exfalso; first | omega | (simp_all; done)
    · have hy3 : Space y ∨ y = 62 := by
        rcases hy with h | h | h
        · exact .inl h
        · exact .inr h
        · obtain ⟨q, u, hq, hu, e⟩ := hy2 h [] rfl
          simp at e
      refine ⟨{ s3 with state := .WithinTag, hasSpace := false }, p3, ty, ⟨.inl rfl, ?_, rfl, hdd, hty⟩,
        ⟨fun _ => rfl, fun _ => rfl, ?_, fun _ _ _ h => h⟩, h.same hns (scan_no_value ha hp hr hy3), ?_, hpar⟩
      · rw [← hlen]; exact hb
      · rintro - ⟨w, h, h', -⟩
        cases h
        exact absurd rfl h'
      · rw [hcur, ← hj]

/-- The attributes of a start tag, up to white space or a bracket. -/
theorem Res.attrs {i y : Nat} {attrs : List AttrText} {x lt : Str} {ty : Option Str} (h : Res c void p s r)
    (hs : InOpen s i false lt ty) (hd : c.src.drop i = printAttrs attrs ++ y :: x)
    (hl : LegalAttrs attrs) (hy : TagSep y)
    (hy2 : y = 47 → ∀ a, attrs.getLast? = some a → ∀ w, a.value = some w → Quoted w)
    (hn : ∀ a ∈ attrs, a.name ∉ p.cur.attributes.map (·.1)) :
    ∃ s' p' ty', InOpen s' (i + (printAttrs attrs).length) false lt ty' ∧
      ((∀ a ∈ attrs, asciiLower a.name = b!"type" → ¬ ValueWritten a.value) → ty = none → ty' = none) ∧
      ((∀ a ∈ attrs, asciiLower a.name = b!"type" → ValueWritten a.value) →
        (ty.isSome ∨ ∃ a ∈ attrs, a.name = b!"type") → ty'.isSome) ∧ Res c void p' s' r ∧
      p'.cur = { p.cur with attributes := p.cur.attributes ++ attrNodes i attrs } ∧
      p'.parents = p.parents := by
  induction attrs generalizing i p s ty with
  | nil =>
    refine ⟨s, p, ty, by simpa [printAttrs] using hs, fun _ h => h, ?_, h, by simp only [attrNodes, List.append_nil]; cases p.cur; rfl, rfl⟩
    rintro - (h | ⟨a, h, -⟩)
    · exact h
    · cases h
  | cons a attrs ih =>
    obtain ⟨hl1, hl2⟩ := hl
    have hkv := hl1 a (by simp)
    simp only [List.map_cons, List.nodup_cons] at hl2
    obtain ⟨z, t, hz, hz1, hz2⟩ : ∃ z t, printAttrs attrs ++ y :: x = z :: t ∧ TagSep z ∧
        (z = 47 → ∀ w, a.value = some w → Quoted w) := by
      cases hat : attrs with
      | nil => 
        refine ⟨y, x, rfl, hy, fun h47 w hw => ?_⟩
        subst hat
        exact hy2 h47 a rfl w hw
      | cons b l =>
        have hb := hl1 b (by simp [hat])
        obtain ⟨d, g, e⟩ : ∃ d g, b.gap = d :: g := by
          cases hg : b.gap with
          | nil => exact absurd hg hb.1
          | cons d g => exact ⟨d, g, rfl⟩
        have hd := hb.2.1 d (by simp [e])
        refine ⟨d, g ++ b.name ++ (match b.value with | none => [] | some w => b!"=" ++ w) ++ printAttrs l ++ y :: x,
          by cases hv : b.value <;> simp [printAttrs, AttrText.print, e, hv], .inl hd, fun h => ?_⟩
        subst h; unfold Space at hd; omega
    have hd' : c.src.drop i = a.print ++ z :: t := by
      rw [hd, ← hz]; simp [printAttrs]
    obtain ⟨s1, p1, ty1, hs1, hty1, h1, hc1, hp1⟩ := h.attr hs hd' hkv hz1 hz2 (hn a (by simp))
    have hd1 := drop_add (n := a.print.length) hd' rfl
    rw [← hz] at hd1
    obtain ⟨s2, p2, ty2, hs2, hn2, hv2, h2, hc2, hp2⟩ := ih h1 hs1 hd1
      ⟨fun y hy => hl1 y (by simp [hy]), hl2.2⟩ (fun h47 b hb => by
        refine hy2 h47 b ?_
        rw [List.getLast?_cons, hb]; rfl) (by
        intro y hy
        rw [hc1]
        simp only [List.map_append, List.map_cons, List.map_nil, List.mem_append, List.mem_singleton,
          not_or]
        refine ⟨hn y (by simp [hy]), ?_⟩
        intro e
        exact hl2.1 (e ▸ List.mem_map_of_mem hy))
    refine ⟨s2, p2, ty2, ?_, ?_, ?_, h2, ?_, hp2.trans hp1⟩
    · have : i + a.print.length + (printAttrs attrs).length =
          i + (printAttrs (a :: attrs)).length := by simp [printAttrs]; omega
      rw [← this]; exact hs2
    · intro hno hty
      refine hn2 (fun b hb => hno b (List.mem_cons_of_mem _ hb)) ?_
      by_cases hk : keptName c a.name = b!"type"
      · have hlow : asciiLower a.name = b!"type" := Classical.byContradiction fun hne =>
          keptName_ne hkv.2.2.2.1 (by decide) hne hk
        by_cases hv : a.value = none
        · rw [hty1.noValue hv, hty]
        · exact hty1.empty hk hv (hno a (by simp) hlow) hty
      · rw [hty1.other hk, hty]
    · intro hall hex
      refine hv2 (fun b hb => hall b (List.mem_cons_of_mem _ hb)) ?_
      by_cases hk : keptName c a.name = b!"type"
      · have hlow : asciiLower a.name = b!"type" := Classical.byContradiction fun hne =>
          keptName_ne hkv.2.2.2.1 (by decide) hne hk
        exact .inl (hty1.value hk (hall a (by simp) hlow))
      · rw [hty1.other hk]
        rcases hex with h | ⟨b, hb, hbt⟩
        · exact .inl h
        · rcases List.mem_cons.1 hb with rfl | hb
          · exact absurd (by rw [hbt]; exact keptName_lower (by decide) (by decide)) hk
          · exact .inr ⟨b, hb, hbt⟩
    · rw [hc2, hc1]; simp [attrNodes]

/-- The whole of a start tag up to its closing bracket. -/
theorem Res.start {i y : Nat} {tag : TagText} {x : Str} (h : Res c void p s r)
    (hs : InText s i) (hd : c.src.drop i = tag.print ++ y :: x) (hn : TagName tag.name)
    (hl : tag.Legal) (hy : y = 62 ∨ (y = 47 ∧ SlashFree tag)) :
    ∃ s' p' sp ty, InOpen s' (i + tag.print.length) sp (keptName c tag.name) ty ∧
      ((∀ a ∈ tag.attrs, asciiLower a.name = b!"type" → ¬ ValueWritten a.value) → ty = none) ∧
      ((∀ a ∈ tag.attrs, asciiLower a.name = b!"type" → ValueWritten a.value) →
        (∃ a ∈ tag.attrs, a.name = b!"type") → ty.isSome) ∧ Res c void p' s' r ∧
      p'.cur = { Node.new i c.src.length [] with
        tag := some tag.name, attributes := tag.nodes i } ∧
      p'.parents = p.cur :: p.parents := by
  obtain ⟨name, attrs, gap⟩ := tag
  obtain ⟨hl, hg⟩ := hl
  dsimp only at hn hl hg ⊢
  have hsep : TagSep y := by unfold TagSep; omega
  -- behind the attributes
  obtain ⟨y1, x1, e1, hy1, hy2⟩ : ∃ y1 x1, gap ++ y :: x = y1 :: x1 ∧ TagSep y1 ∧
      (y1 = 47 → ∀ a, attrs.getLast? = some a → ∀ w, a.value = some w → Quoted w) := by
    cases gap with
    | nil =>
      refine ⟨y, x, rfl, hsep, fun h => ?_⟩
      rcases hy with hy | ⟨-, hy⟩
      · omega
      · rcases hy with hy | hy
        · exact absurd rfl hy
        · exact hy
    | cons b g =>
      refine ⟨b, g ++ y :: x, rfl, .inl (hg b List.mem_cons_self), fun h => ?_⟩
      have := hg b List.mem_cons_self
      unfold Space at this; omega
  have hd0 : c.src.drop i = b!"<" ++ name ++ (printAttrs attrs ++ y1 :: x1) := by
    rw [hd, ← e1]; simp [TagText.print]
  obtain ⟨z, t, hz, hz2⟩ : ∃ z t, printAttrs attrs ++ y1 :: x1 = z :: t ∧ TagSep z := by
    cases hat : attrs with
    | nil => exact ⟨y1, x1, rfl, hy1⟩
    | cons b l =>
      have hb := hl.1 b (by simp [hat])
      obtain ⟨d, g, e⟩ : ∃ d g, b.gap = d :: g := by
        cases hg : b.gap with
        | nil => exact absurd hg hb.1
        | cons d g => exact ⟨d, g, rfl⟩
      have hd := hb.2.1 d (by simp [e])
      exact ⟨d, g ++ b.name ++ (match b.value with | none => [] | some w => b!"=" ++ w) ++ printAttrs l ++ y1 :: x1,
        by cases hv : b.value <;> simp [printAttrs, AttrText.print, e, hv], .inl hd⟩
  have hd1 : c.src.drop i = b!"<" ++ name ++ z :: t := by rw [hd0, hz]
  obtain ⟨s1, p1, hs1, h1, hc1, hp1⟩ := h.openTag hs hd1 hn hz2
  have hd2 := drop_add (n := name.length + 1) hd1 (by simp [Nat.add_comm])
  rw [← hz] at hd2
  obtain ⟨s2, p2, ty, hs2, hty1, hty2, h2, hc2, hp2⟩ := h1.attrs hs1 hd2 hl hy1 hy2 (by rw [hc1]; simp [Node.new])
  have hd3 := drop_add (n := (printAttrs attrs).length) hd2 rfl
  rw [← e1] at hd3
  have hcur : p2.cur = { Node.new i c.src.length [] with
      tag := some name, attributes := (TagText.mk name attrs gap).nodes i } := by
    rw [hc2, hc1]
    have : i + 1 + name.length = i + (name.length + 1) := by omega
    simp [Node.new, TagText.nodes, this]
  by_cases hgap : gap = []
  · subst hgap
    refine ⟨s2, p2, false, ty, ?_, fun h => hty1 h rfl, fun h1 h2 => hty2 h1 (.inr h2), h2, hcur, hp2.trans hp1⟩
    have : i + (name.length + 1) + (printAttrs attrs).length = i + (TagText.mk name attrs []).print.length := by
      simp [TagText.print]; omega
    rw [← this]; exact hs2
  · obtain ⟨s3, hs3, h3⟩ := h2.gap hs2 hd3 hg hgap (by unfold Space; omega)
    refine ⟨s3, p2, true, ty, ?_, fun h => hty1 h rfl, fun h1 h2 => hty2 h1 (.inr h2), h3, hcur, hp2.trans hp1⟩
    have : i + (name.length + 1) + (printAttrs attrs).length + gap.length = i + (TagText.mk name attrs gap).print.length := by
      simp [TagText.print]; omega
    rw [← this]; exact hs3

theorem tagPre_same {s1 : Sc} (h : TagPre c s s1) : s1.pos = s.pos := by
  cases h <;> rfl

theorem Res.close {i : Nat} {x lt : Str} {sp : Bool} {ty : Option Str} (h : Res c void p s r)
    (hs : InOpen s i sp lt ty)
    (hd : c.src.drop i = 62 :: x) (hp0 : p.parents ≠ []) :
    ∃ s' p', s'.pos = i + 1 ∧ s'.state = afterStartTag s ∧ Res c void p' s' r ∧
      (if p.cur.tag.any (fun t => void.contains t) then
        { p with cur := { p.cur with stop := i + 1, startTagEnd := some (i + 1), closed := true } }.pop
       else .ok { p with cur := { p.cur with stop := i + 1, startTagEnd := some (i + 1) } }) = .ok p' := by
  have hp : s.pos < c.src.length := hs.pos ▸ pos_lt hd
  have hr := rest_eq hs.pos hd
  obtain ⟨s1, p1, h1, h2, h3⟩ := h.step hp (not_stuck_at (b := 62) (by rw [hr]; rfl) (by decide) hs.state_ne)
  have hw : wsLen (rest c s) = 0 := by rw [hr]; simp [wsLen, isWs]
  have h1 := h1.invOpen hs.state hp hw (by rw [hr]; simp)
  have hr' : rest c { s with state := .WithinTag } = rest c s := rfl
  have hpe : p.parents.isEmpty = false := by simpa using hp0
  cases h1 with
  | ws h => rw [hr'] at h; omega
  | attrName _ _ _ h => rw [hr', hr] at h; simp [attrNameLen, firstRunLen, codePoint, attrNameChar] at h
  | selfClose _ _ h => rw [hr', hr] at h; simp at h
  | pseudo _ _ _ h => rw [hr', hr] at h; simp at h
  | unknown _ _ _ _ h => rw [hr', hr] at h; simp at h
  | close s1 ht =>
    have hq : s1.pos = s.pos := by have := tagPre_same ht; exact this
    simp only [parseStep, fin, hpe, Sc.tokenEnd, Sc.tokenLength, adv, hs.pos, hq] at h2
    simp only [Nat.add_sub_cancel_left, Bool.false_eq_true, if_false] at h2
    exact ⟨_, p1, by simp [fin, adv, hq, hs.pos], rfl, h3, h2⟩

theorem Res.selfClose {i : Nat} {x lt : Str} {sp : Bool} {ty : Option Str} (h : Res c void p s r)
    (hs : InOpen s i sp lt ty)
    (hd : c.src.drop i = 47 :: 62 :: x) (hp0 : p.parents ≠ []) :
    ∃ s' p', InText s' (i + 2) ∧ Res c void p' s' r ∧
      { p with cur := { p.cur with closed := true, stop := i + 2, startTagEnd := some (i + 2) } }.pop =
        .ok p' := by
  have hp : s.pos < c.src.length := hs.pos ▸ pos_lt hd
  have hr := rest_eq hs.pos hd
  obtain ⟨s1, p1, h1, h2, h3⟩ := h.step hp (not_stuck_at (b := 47) (by rw [hr]; rfl) (by decide) hs.state_ne)
  have hw : wsLen (rest c s) = 0 := by rw [hr]; simp [wsLen, isWs]
  have h1 := h1.invOpen hs.state hp hw (by rw [hr]; simp)
  have hr' : rest c { s with state := .WithinTag } = rest c s := rfl
  have hpe : p.parents.isEmpty = false := by simpa using hp0
  cases h1 with
  | ws h => rw [hr'] at h; omega
  | attrName _ _ _ h => rw [hr', hr] at h; simp [attrNameLen, firstRunLen, codePoint, attrNameChar] at h
  | close _ _ h => rw [hr', hr] at h; simp at h
  | pseudo _ _ _ h => rw [hr', hr] at h; simp at h
  | unknown _ _ _ h => rw [hr', hr] at h; simp at h
  | selfClose s1 ht =>
    have hq : s1.pos = s.pos := by have := tagPre_same ht; exact this
    simp only [parseStep, fin, hpe, Sc.tokenEnd, Sc.tokenLength, adv, hs.pos, hq] at h2
    simp only [Bool.false_eq_true, if_false] at h2
    exact ⟨_, p1, ⟨rfl, by simp [fin, adv, hq, hs.pos]⟩, h3, h2⟩

theorem Res.endTagOf {i : Nat} {name gap x : Str} (h : Res c void p s r) (hs : InText s i)
    (hd : c.src.drop i = b!"</" ++ name ++ gap ++ b!">" ++ x) (hne : name ≠ [])
    (hlen : elementNameLen c.uni (name ++ (gap ++ 62 :: x)) = name.length) (hg : Spaces gap)
    (ht : p.cur.tag = some name) (hp0 : p.parents ≠ []) :
    ∃ s' p', InText s' (i + (name.length + gap.length + 3)) ∧ Res c void p' s' r ∧
      p'.cur = (p.parents.headD p.cur).addChild { p.cur with
        closed := true, endTagStart := some i, stop := i + (name.length + gap.length + 3) } ∧
      p'.parents = p.parents.tail := by
  have hd : c.src.drop i = b!"</" ++ (name ++ (gap ++ 62 :: x)) := by simpa using hd
  have hp : s.pos < c.src.length := hs.pos ▸ pos_lt hd
  have hr := rest_eq hs.pos hd
  have hpos : 0 < name.length := List.length_pos_iff.2 hne
  obtain ⟨a, k, e⟩ := List.exists_cons_of_ne_nil hne
  obtain ⟨s1, p1, h, ha, hb, he, hst, hcur, hpar⟩ : ∃ (s1 : Sc) (p1 : PState), Res c void p1 s1 r ∧
      s1.state = .AfterOpeningEndTag ∧ s1.pos = i + 2 ∧ c.src.drop (i + 2) = name ++ (gap ++ 62 :: x) ∧
      p1.endTagStart = some i ∧ p1.cur = p.cur ∧ p1.parents = p.parents := by
    obtain ⟨s1, p1, h1, h2, h3⟩ := h.step hp (not_stuck (by rw [hs.state]; decide) (by rw [hs.state]; decide))
    have h1 := h1.invContent hs.state hp
    cases h1 with
    | startComment h => rw [hr] at h; simp at h
    | startDoctype h => rw [hr] at h; simp [lowerByte] at h
    | startTagOpen _ h => rw [hr] at h; simp at h
    | content h0 h1 => rw [hr] at h0; simp at h0
    | endTagOpen =>
      simp only [parseStep, fin] at h2
      cases h2
      exact ⟨_, _, h3, rfl, by simp [adv, fin, hs.pos], drop_add hd rfl, by simp [hs.pos], rfl, rfl⟩
  obtain ⟨s2, p2, h, ha, hb, he, hst, hcur, hpar, hname⟩ : ∃ (s2 : Sc) (p2 : PState), Res c void p2 s2 r ∧
      s2.state = .WithinEndTag ∧ s2.pos = i + 2 + name.length ∧
      c.src.drop (i + 2 + name.length) = gap ++ 62 :: x ∧
      p2.endTagStart = some i ∧ p2.cur = p.cur ∧ p2.parents = p.parents ∧
      p2.endTagName = some (if c.caseSensitive then name else toLower c.uni name) := by
    have hr := rest_eq hb he
    have hp : s1.pos < c.src.length := by rw [hb]; rw [e] at he; exact pos_lt he
    obtain ⟨s2, p2, h1, h2, h3⟩ := h.step hp (not_stuck (by rw [ha]; decide) (by rw [ha]; decide))
    cases h1 with
    | endTagName =>
      simp only [parseStep, fin] at h2
      obtain ⟨t, ht, h2⟩ := bind_ok h2
      cases h2
      have ht := (sliceStr_ok ht).2.2.2.2
      simp only [adv] at ht
      rw [hr, hlen, bytesIn_eq_take, hb, he] at ht
      simp at ht
      subst ht
      exact ⟨_, _, h3, rfl, by simp only [fin, adv, hr, hlen, hb], drop_add he rfl, hst, hcur, hpar, rfl⟩
    | endTagWs _ _ _ h0 => rw [hr, hlen] at h0; omega
    | endTagNoName _ _ _ h0 => rw [hr, hlen] at h0; omega
    | endTagImmediate _ _ _ h0 => rw [hr, hlen] at h0; omega
    | _ => exfalso; first | omega | (simp_all; done)
  -- white space
  obtain ⟨s3, h, ha, hb, he⟩ : ∃ s3 : Sc, Res c void p2 s3 r ∧ s3.state = .WithinEndTag ∧
      s3.pos = i + 2 + name.length + gap.length ∧ c.src.drop (i + 2 + name.length + gap.length) = 62 :: x := by
    have hd3 := drop_add (n := gap.length) he rfl
    by_cases hgap : gap = []
    · subst hgap
      exact ⟨s2, h, ha, hb, he⟩
    · have hr := rest_eq hb he
      have hp : s2.pos < c.src.length := by
        have := congrArg List.length he
        simp at this; omega
      have hl : wsLen (rest c s2) = gap.length := by rw [hr, wsLen_exact hg (by unfold Space; omega)]
      have h0 : 0 < gap.length := List.length_pos_iff.2 hgap
      have hhd : ∃ b, (rest c s2).head? = some b ∧ Space b := by
        cases gap with
        | nil => exact absurd rfl hgap
        | cons b g => exact ⟨b, by rw [hr]; rfl, hg b List.mem_cons_self⟩
      obtain ⟨b, hhd, hb'⟩ := hhd
      obtain ⟨s3, p3, h1, h2, h3⟩ := h.step hp (not_stuck (by rw [ha]; decide) (by rw [ha]; decide))
      have h1 := h1.invEndTag ha hp
      cases h1 with
      | ws =>
        simp only [parseStep, fin] at h2
        cases h2
        refine ⟨_, h3, ?_, ?_, hd3⟩
        · exact ha
        · simp only [fin, adv, hl, hb]
      | pseudo _ h => rw [hhd] at h; cases h; unfold Space at hb'; omega
      | unknown h => omega
      | close h => rw [hhd] at h; cases h; unfold Space at hb'; omega
  have hr := rest_eq hb he
  have hp : s3.pos < c.src.length := hb ▸ pos_lt he
  obtain ⟨s4, p3, h1, h2, h3⟩ := h.step hp (not_stuck (by rw [ha]; decide) (by rw [ha]; decide))
  have h1 := h1.invEndTag ha hp
  have hw : wsLen (rest c s3) = 0 := by rw [hr]; simp [wsLen, isWs]
  cases h1 with
  | ws => omega
  | pseudo _ h => rw [hr] at h; simp at h
  | unknown _ h => rw [hr] at h; simp at h
  | close =>
    obtain ⟨q, qs, hq⟩ : ∃ q qs, p.parents = q :: qs := by
      cases hx : p.parents with
      | nil => exact absurd hx hp0
      | cons q qs => exact ⟨q, qs, rfl⟩
    have hm : matchDepth c.uni c.caseSensitive p2.endTagName p2.cur p2.parents = p2.parents.length := by
      rw [hpar, hq, hname, hcur]
      simp [matchDepth, Node.isSameTag, ht]
    have hpl : p2.parents.length = qs.length + 1 := by rw [hpar, hq]; rfl
    simp only [parseStep, fin, hm, Nat.sub_self, popUnclosed, bind, Except.bind] at h2
    rw [if_pos (by omega)] at h2
    simp only [PState.pop, hpar, hq, Sc.tokenEnd, adv, hb] at h2
    cases h2
    refine ⟨_, _, ⟨rfl, ?_⟩, h3, ?_, ?_⟩
    · simp only [fin, adv, hb]; omega
    · simp only [hq, List.headD, hcur, hst]
      have : i + 2 + name.length + gap.length + 1 = i + (name.length + gap.length + 3) := by omega
      rw [this]
    · simp [hq]

theorem Res.endTag {i : Nat} {name gap x : Str} (h : Res c void p s r) (hs : InText s i)
    (hd : c.src.drop i = b!"</" ++ name ++ gap ++ b!">" ++ x) (hn : TagName name) (hg : Spaces gap)
    (ht : p.cur.tag = some name) (hp0 : p.parents ≠ []) :
    ∃ s' p', InText s' (i + (name.length + gap.length + 3)) ∧ Res c void p' s' r ∧
      p'.cur = (p.parents.headD p.cur).addChild { p.cur with
        closed := true, endTagStart := some i, stop := i + (name.length + gap.length + 3) } ∧
      p'.parents = p.parents.tail := by
  obtain ⟨z, t, hz, hz2⟩ : ∃ z t, gap ++ 62 :: x = z :: t ∧ TagSep z := by
    cases gap with
    | nil => exact ⟨62, x, rfl, .inr (.inl rfl)⟩
    | cons b g => exact ⟨b, g ++ 62 :: x, rfl, .inl (hg b List.mem_cons_self)⟩
  have hlen := elementNameLen_exact (u := c.uni) (t := t) hn hz2
  rw [← hz] at hlen
  obtain ⟨⟨a, k, e, ha⟩, hn2⟩ := id hn
  exact h.endTagOf hs hd (by rw [e]; simp) hlen hg ht hp0

theorem Spec.RawElement.name {tag : TagText} {kids : List Item} (h : RawElement tag kids) : TagName tag.name := by
  obtain ⟨body, -, ⟨e, -⟩ | ⟨e, -⟩⟩ := h <;> rw [e] <;>
    exact ⟨⟨_, _, rfl, .inl (by decide)⟩, by simp [NameByte]; decide⟩

theorem Spec.TypedScript.name {tag : TagText} (h : TypedScript tag) : TagName tag.name := by
  rw [h.1]; exact ⟨⟨_, _, rfl, .inl (by decide)⟩, by simp [NameByte]; decide⟩

theorem afterStartTag_html {i : Nat} {sp : Bool} {tag : TagText} {ty : Option Str}
    (hs : InOpen s i sp (keptName c tag.name) ty) (h : LegalName tag.name ∨ (tag.name = b!"script" ∧ ty.isSome)) :
    afterStartTag s = .WithinContent := by
  unfold afterStartTag
  rcases h with h | ⟨h1, h2⟩
  · have h1 := keptName_ne (c := c) h.ascii (w := b!"script") (by decide) h.2.1
    have h2 := keptName_ne (c := c) h.ascii (w := b!"style") (by decide) h.2.2
    rw [hs.last]
    simp [h1, h2]
  · rw [hs.last, hs.type, h1, keptName_lower (by decide) (by decide)]
    simp [h2]

mutual
theorem Res.item {i : Nat} {x : Str} {p : PState} {s : Sc} (h : Res c void p s r) (hs : InText s i) :
    ∀ it : Item, c.src.drop i = it.print ++ x → it.Legal void →
    ∃ s' p', InText s' (i + it.print.length) ∧ Res c void p' s' r ∧
      p'.cur = { p.cur with children := p.cur.children ++ it.nodes i } ∧ p'.parents = p.parents
  | .text t, hd, hl => by
    simp only [Item.print, Item.Legal] at hd hl
    obtain ⟨s', h1, h2⟩ := h.text hs hd hl
    exact ⟨s', p, h1, h2, by simp only [Item.nodes, List.append_nil]; cases p.cur; rfl, rfl⟩
  | .comment b, hd, hl => by
    simp only [Item.print, Item.Legal] at hd hl
    obtain ⟨s', h1, h2⟩ := h.comment hs hd hl
    refine ⟨s', p, ?_, h2, by simp only [Item.nodes, List.append_nil]; cases p.cur; rfl, rfl⟩
    have : i + (b.length + 7) = i + (Item.comment b).print.length := by simp [Item.print]
    rw [← this]; exact h1
  | .doctype w b, hd, hl => by
    simp only [Item.print, Item.Legal] at hd hl
    obtain ⟨s', h1, h2⟩ := h.doctype hs hd hl.1 hl.2
    refine ⟨s', p, ?_, h2, by simp only [Item.nodes, List.append_nil]; cases p.cur; rfl, rfl⟩
    have : i + (w.length + b.length + 3) = i + (Item.doctype w b).print.length := by simp [Item.print]; omega
    rw [← this]; exact h1
  | .void tag, hd, hl => by
    simp only [Item.print, Item.Legal] at hd hl
    obtain ⟨ha, hn, hv⟩ := hl
    have hd : c.src.drop i = tag.print ++ 62 :: x := by simpa using hd
    obtain ⟨s1, p1, sp, ty, hs1, -, -, h1, hc1, hp1⟩ := h.start hs hd hn.1 ha (.inl rfl)
    obtain ⟨s2, p2, hs2, hst2, h2, hx⟩ := h1.close hs1 (drop_add hd rfl) (by rw [hp1]; simp)
    rw [hc1] at hx
    simp only [Option.any, List.contains_iff_mem.2 hv, if_true, PState.pop, hp1] at hx
    cases hx
    refine ⟨s2, _, ⟨hst2.trans (afterStartTag_html hs1 (.inl hn)), ?_⟩, h2, ?_, rfl⟩
    · simpa [Item.print, Nat.add_assoc] using hs2
    · simp [Node.addChild, Item.nodes, Node.new]
  | .selfClosed tag, hd, hl => by
    simp only [Item.print, Item.Legal] at hd hl
    obtain ⟨ha, hn, hf⟩ := hl
    have hd : c.src.drop i = tag.print ++ 47 :: 62 :: x := by simpa using hd
    obtain ⟨s1, p1, sp, ty, hs1, -, -, h1, hc1, hp1⟩ := h.start hs hd hn ha (.inr ⟨rfl, hf⟩)
    obtain ⟨s2, p2, hs2, h2, hx⟩ := h1.selfClose hs1 (drop_add hd rfl) (by rw [hp1]; simp)
    rw [hc1] at hx
    simp only [PState.pop, hp1] at hx
    cases hx
    refine ⟨s2, _, ?_, h2, ?_, rfl⟩
    · simpa [Item.print, Nat.add_assoc] using hs2
    · simp [Node.addChild, Item.nodes, Node.new]
  | .elem tag kids gap, hd, hl => by
    simp only [Item.print, Item.Legal] at hd hl
    obtain ⟨ha, hg, hv, hk⟩ := hl
    have hn : TagName tag.name := by
      rcases hk with ⟨hk | hk, -⟩ | hk
      · exact hk.1
      · exact hk.name
      · exact hk.name
    have hd : c.src.drop i = tag.print ++ 62 :: (printAll kids ++
      (b!"</" ++ tag.name ++ gap ++ b!">" ++ x)) := by simpa using hd
    obtain ⟨s1, p1, sp, ty, hs1, hty1, hty2, h1, hc1, hp1⟩ := h.start hs hd hn ha (.inl rfl)
    obtain ⟨s2, p2, hs2, hst2, h2, hx⟩ := h1.close hs1 (drop_add hd rfl) (by rw [hp1]; simp)
    have hv' : void.contains tag.name = false := by simpa using hv
    rw [hc1] at hx
    simp only [Option.any, hv', Bool.false_eq_true, if_false, hp1] at hx
    cases hx
    have hd2 := drop_add (n := tag.print.length + 1) (x := tag.print ++ b!">")
      (y := printAll kids ++ (b!"</" ++ tag.name ++ gap ++ b!">" ++ x)) (by simpa using hd) (by simp)
    rw [Nat.add_assoc] at hs2
    -- the content
    obtain ⟨s3, p3, hs3, h3, hc3, hp3⟩ : ∃ s3 p3, InText s3 (i + (tag.print.length + 1) + (printAll kids).length) ∧
        Res c void p3 s3 r ∧
        p3.cur = { Node.new i c.src.length [] with
          tag := some tag.name, attributes := tag.nodes i, stop := i + tag.print.length + 1,
          startTagEnd := some (i + tag.print.length + 1), children := nodesAll (i + (tag.print.length + 1)) kids } ∧
        p3.parents = p.cur :: p.parents := by
      rcases hk with ⟨hk, hkids⟩ | ⟨body, hkids, hk⟩
      · have hcontent : afterStartTag s1 = .WithinContent := by
          refine afterStartTag_html hs1 ?_
          rcases hk with hk | hk
          · exact .inl hk
          · exact .inr ⟨hk.1, hty2 hk.2.2 hk.2.1⟩
        obtain ⟨s3, p3, hs3, h3, hc3, hp3⟩ := Res.items h2 ⟨hst2.trans hcontent, hs2⟩ kids hd2 hkids
        exact ⟨s3, p3, hs3, h3, by rw [hc3]; simp [Node.new], by rw [hp3]⟩
      · subst hkids
        simp only [printAll, Item.print, List.append_nil, nodesAll, Item.nodes] at hd2 ⊢
        rcases hk with ⟨hname, hbody⟩ | ⟨hname, htype, hb1, hb2⟩
        · have hst : s2.state = .WithinStyleContent := by
            rw [hst2]; unfold afterStartTag
            rw [hs1.last, hname, keptName_lower (by decide) (by decide)]
            simp
          rw [hname] at hd2
          obtain ⟨s3, hs3, h3⟩ := h2.style (x := gap ++ b!">" ++ x) hst hs2 (by rw [hd2]; simp) hbody
          exact ⟨s3, _, hs3, h3, by simp [Node.new, hname], rfl⟩
        · have hst : s2.state = .WithinScriptContent := by
            rw [hst2]; unfold afterStartTag
            rw [hs1.last, hs1.type, hty1 htype, hname, keptName_lower (by decide) (by decide)]
            simp
          rw [hname] at hd2
          obtain ⟨s3, hs3, h3⟩ := h2.script (x := gap ++ b!">" ++ x) hst hs2 (by rw [hd2]; simp) hb1 hb2
          exact ⟨s3, _, hs3, h3, by simp [Node.new, hname], rfl⟩
    have hd3 := drop_add (n := (printAll kids).length) hd2 rfl
    obtain ⟨s4, p4, hs4, h4, hc4, hp4⟩ := h3.endTag hs3 hd3 hn hg (by rw [hc3]) (by rw [hp3]; simp)
    refine ⟨s4, p4, ?_, h4, ?_, ?_⟩
    · have : i + (tag.print.length + 1) + (printAll kids).length + (tag.name.length + gap.length + 3) =
        i + (Item.elem tag kids gap).print.length := by simp [Item.print]; omega
      rw [← this]; exact hs4
    · rw [hc4, hp3, hc3]
      simp [Node.addChild, Item.nodes, Node.new, Nat.add_assoc]
    · rw [hp4, hp3]; simp
theorem Res.items {i : Nat} {x : Str} {p : PState} {s : Sc} (h : Res c void p s r) (hs : InText s i) :
    ∀ l : List Item, c.src.drop i = printAll l ++ x → AllLegal void l →
    ∃ s' p', InText s' (i + (printAll l).length) ∧ Res c void p' s' r ∧
      p'.cur = { p.cur with children := p.cur.children ++ nodesAll i l } ∧ p'.parents = p.parents
  | [], hd, hl =>
    ⟨s, p, by simpa [printAll] using hs, h, by simp only [nodesAll, List.append_nil]; cases p.cur; rfl, rfl⟩
  | it :: l, hd, hl => by
    simp only [printAll, AllLegal, List.append_assoc] at hd hl
    obtain ⟨s1, p1, hs1, h1, hc1, hp1⟩ := Res.item h hs it hd hl.1
    obtain ⟨s2, p2, hs2, h2, hc2, hp2⟩ := Res.items h1 hs1 l (drop_add hd rfl) hl.2
    refine ⟨s2, p2, ?_, h2, ?_, hp2.trans hp1⟩
    · simpa [printAll, Nat.add_assoc] using hs2
    · rw [hc2, hc1]; simp [nodesAll]
end

/-- Parsing a printed document gives exactly the expected nodes. -/
theorem parse_print {u : Uni} {cs : Bool} {items : List Item} {roots : List Node}
    (hl : AllLegal void items) (h : parse u cs void (printAll items) = .ok roots) :
    roots = nodesAll 0 items := by
  unfold parse at h
  obtain ⟨p, hp, h⟩ := bind_ok h
  cases h
  have ho : Out (parserCfg u cs (printAll items)) void (.init (printAll items).length)
      (.new 0 .WithinContent) p := ⟨_, hp⟩
  obtain ⟨s2, p2, hs2, h2, hc2, hp2⟩ := Res.items (x := []) (i := 0) ho ⟨rfl, rfl⟩ items
    (by simp [parserCfg]) hl
  have := Out.done h2 (by rw [hs2.pos]; simp [parserCfg])
  subst this
  rw [hc2, hp2]
  simp [PState.init, Node.new, finishAll]

end Html
