import Verif.Proof.PrintTotal
import Verif.Proof.Retag
import Verif.Proof.SelectionPanics
import Verif.Props.Parser

/-! # Edits that leave the rest of a document alone do not change whether it can be parsed -/

namespace Html
open Spec

variable {c : Cfg} {void : List Str}

/-- The text cannot be scanned from this state. -/
def Broken (u : Uni) (cs : Bool) (st : SS) (src : Str) : Prop := ∃ e, tokens (parserCfg u cs src) (.new 0 st) = .error e

theorem broken_iff {u : Uni} {cs : Bool} {src : Str} {cps : List Nat} (hu : Utf8 cps src) :
    Broken u cs .WithinContent src ↔ ∃ e, parse u cs void src = .error e := by
  have h := Props.C11_parser_returns_iff_scanner_does u cs void src cps hu
  unfold Broken
  cases h1 : parse u cs void src <;> cases h2 : tokens (parserCfg u cs src) (.new 0 .WithinContent) <;>
    simp [h1, h2] at h ⊢

theorem Fails.tokensF {p : PState} {s : Sc} (h : Fails c void p s) : ∀ f, ∃ e, tokensF c f s = .error e := by
  induction h with
  | here h1 =>
    intro f
    cases f with
    | zero => exact ⟨_, rfl⟩
    | succ f => unfold Html.tokensF; rw [h1]; exact ⟨_, rfl⟩
  | step h1 h2 _ _ ih =>
    intro f
    cases f with
    | zero => exact ⟨_, rfl⟩
    | succ f =>
      obtain ⟨e, h⟩ := ih f
      unfold Html.tokensF
      rw [h1]
      simp only [bind, Except.bind, if_neg h2, h]
      exact ⟨_, rfl⟩

theorem tokensF_enough {s : Sc} {f : Nat} {ts : List Tok} (h : tokensF c f s = .ok ts) (g : Nat) :
    tokensF c (f + g) s = .ok ts := by
  induction f generalizing s ts with
  | zero => cases h
  | succ f ih =>
    rw [show f + 1 + g = (f + g) + 1 by omega]
    unfold tokensF at h ⊢
    obtain ⟨s1, h1, h⟩ := bind_ok h
    rw [h1]
    simp only [bind, Except.bind]
    split at h
    · rename_i he; rw [if_pos he]; exact h
    · rename_i he
      rw [if_neg he]
      obtain ⟨r, h2, h⟩ := bind_ok h
      rw [ih h2]
      exact h

/-- From such a state on, the parser panics exactly if the scanner does on the remaining text. -/
theorem Res.none_iff {u : Uni} {cs : Bool} {pre y : Str} {p : PState} {s : Sc} {r : Option PState} {st : SS}
    (h : Res ((parserCfg u cs y).behind pre) void p s r) (hs : s.state = st) (hp : s.pos = pre.length)
    (hst : st.inStart = false) : r = none ↔ Broken u cs st y := by
  have h := h.eqv (eqv_new (c := parserCfg u cs y) pre hs hp hst)
  have ht := tokens_shift (c := parserCfg u cs y) (pre := pre) (s := .new 0 st)
  unfold Broken
  cases r with
  | none =>
    refine ⟨fun _ => ?_, fun _ => rfl⟩
    cases hy : tokens (parserCfg u cs y) (.new 0 st) with
    | error e => exact ⟨e, rfl⟩
    | ok ts =>
      rw [hy] at ht
      unfold tokens at ht
      obtain ⟨e, he⟩ := Fails.tokensF (show Fails _ _ _ _ from h) _
      rw [he] at ht
      cases ht
  | some r =>
    refine ⟨fun h => (by cases h), ?_⟩
    rintro ⟨e, he⟩
    exfalso
    obtain ⟨f, h⟩ := h
    obtain ⟨ts, h⟩ := parseLoop_tokens h
    rw [he] at ht
    have h1 := tokensF_enough h (2 * (((parserCfg u cs y).behind pre).src.length - ((Sc.new 0 st).shift pre.length).pos) + 2)
    unfold tokens at ht
    rw [Nat.add_comm, tokensF_fuel (by have := mu_le ((parserCfg u cs y).behind pre) ((Sc.new 0 st).shift pre.length); omega)] at h1
    rw [h1] at ht
    cases ht

theorem parse_res {u : Uni} {cs : Bool} {src : Str} {cps : List Nat} (hu : Utf8 cps src) :
    ∃ r, Res (parserCfg u cs src) void (.init src.length) (.new 0 .WithinContent) r ∧
      (r = none ↔ Broken u cs .WithinContent src) := by
  rw [broken_iff (void := void) hu]
  cases h : parse u cs void src with
  | ok roots =>
    unfold parse at h
    obtain ⟨r, h1, _⟩ := bind_ok h
    exact ⟨some r, ⟨_, h1⟩, by simp⟩
  | error e =>
    refine ⟨none, ?_, by simp⟩
    unfold parse at h
    rcases bind_err h with h | ⟨p, _, h⟩
    · refine parseLoop_fails (c := parserCfg u cs src) (asciiNext_of_utf8 hu) (lastByte_of_utf8 hu)
        PInv.init (.inr (.inl rfl)) (Nat.zero_le _) ?_ h
      unfold mu Sc.new parserCfg; simp only; split <;> omega
    · cases h

/-- Text and complete pieces in front do not matter. -/
theorem broken_front {u : Uni} {cs : Bool} {t y : Str} {items : List Item} {cps : List Nat} (ht : 60 ∉ t)
    (hl : AllLegal void items) (hu : Utf8 cps (t ++ (printAll items ++ y))) :
    Broken u cs .WithinContent (t ++ (printAll items ++ y)) ↔ Broken u cs .WithinContent y := by
  obtain ⟨r, h, hr⟩ := parse_res (u := u) (cs := cs) (void := void) hu
  obtain ⟨s1, hs1, h1⟩ := h.text (i := 0) (t := t) (x := printAll items ++ y) ⟨rfl, rfl⟩ (by simp [parserCfg]) ht
  obtain ⟨s2, p2, hs2, h2, _⟩ := h1.items (x := y) hs1 items (by simp [parserCfg]) hl
  rw [← hr]
  refine Res.none_iff (u := u) (cs := cs) (pre := t ++ printAll items) (y := y) (p := p2) (s := s2) (void := void) ?_ hs2.state ?_ rfl
  · rw [show (parserCfg u cs y).behind (t ++ printAll items) = parserCfg u cs (t ++ (printAll items ++ y)) by
      simp [parserCfg, Cfg.behind]]
    exact h2
  · rw [hs2.pos]; simp

theorem map_error {α β : Type} {f : α → β} {r : R α} : (∃ e, r.map f = .error e) ↔ ∃ e, r = .error e := by
  cases r <;> simp [Except.map]

/-- Nor do tags, comments and doctypes that are complete. -/
theorem broken_behind {u : Uni} {cs : Bool} {a z : Str}
    (ha : a = [] ∨ ∃ i tk, EndsBracket (parserCfg u cs a) 0 .WithinContent i tk ∧ tk.state = .WithinContent) :
    Broken u cs .WithinContent (a ++ z) ↔ Broken u cs .WithinContent z := by
  rcases ha with rfl | ⟨i, t, hb, hst⟩
  · exact Iff.rfl
  · obtain ⟨x, hx, hw, ho, h1⟩ := hb.split
    have := tokens_append (c := parserCfg u cs a) hw hx z (s := .new 0 .WithinContent) ho hb.toks h1 hb.kind hb.nonempty
    rw [hst] at this
    unfold Broken
    change (∃ e, tokens { parserCfg u cs a with src := a ++ z } _ = _) ↔ _
    rw [show tokens { parserCfg u cs a with src := a ++ z } (.new 0 .WithinContent) = _ from this]
    exact map_error

theorem bracket_utf8 {u : Uni} {cs : Bool} {a z : Str} {cps : List Nat}
    (ha : a = [] ∨ ∃ i tk, EndsBracket (parserCfg u cs a) 0 .WithinContent i tk ∧ tk.state = .WithinContent)
    (hu : Utf8 cps (a ++ z)) : ∃ cps', Utf8 cps' z := by
  rcases ha with rfl | ⟨i, t, hb, _⟩
  · exact ⟨cps, hu⟩
  · obtain ⟨x, hx, _⟩ := hb.split
    have hx : a = x ++ [62] := hx
    have hb : isBoundary (a ++ z) (x.length + 1) = true :=
      asciiNext_of_utf8 hu x.length 62 (by rw [hx]; simp) (by decide)
    obtain ⟨k, _, h⟩ := utf8_split hu hb
    rw [show (a ++ z).drop (x.length + 1) = z by rw [hx]; simp] at h
    exact ⟨_, h⟩

/-- Inserted pieces do not change whether the text can be parsed. -/
theorem insert_broken {u : Uni} {cs : Bool} {pre y : Str} {items : List Item} {cps : List Nat}
    (hpre : EndsInContent u cs pre) (hl : AllLegal void items) (hu : Utf8 cps (pre ++ printAll items ++ y)) :
    Broken u cs .WithinContent (pre ++ printAll items ++ y) ↔ Broken u cs .WithinContent y := by
  obtain ⟨a, t, hp, ht, ha⟩ := hpre
  have e : pre ++ printAll items ++ y = a ++ (t ++ (printAll items ++ y)) := by rw [hp]; simp
  rw [e] at hu ⊢
  obtain ⟨cps', hu'⟩ := bracket_utf8 ha hu
  rw [broken_behind ha, broken_front ht hl hu']

theorem content_broken {u : Uni} {cs : Bool} {pre y : Str} {cps : List Nat}
    (hpre : EndsInContent u cs pre) (hu : Utf8 cps (pre ++ y)) :
    Broken u cs .WithinContent (pre ++ y) ↔ Broken u cs .WithinContent y := by
  have := insert_broken (void := []) (items := []) (cps := cps) hpre trivial (y := y) (by simpa [printAll] using hu)
  simpa [printAll] using this

/-- Two texts that are both parsed or both not. -/
theorem parse_map {u : Uni} {cs : Bool} {src src' : Str} {cps cps' : List Nat} {f : List Node → List Node}
    (hu : Utf8 cps src) (hu' : Utf8 cps' src')
    (hb : Broken u cs .WithinContent src' ↔ Broken u cs .WithinContent src)
    (hf : ∀ roots roots', parse u cs void src = .ok roots → parse u cs void src' = .ok roots' → roots' = f roots) :
    parse u cs void src' = (parse u cs void src).map f := by
  rw [broken_iff (void := void) hu, broken_iff (void := void) hu'] at hb
  cases h : parse u cs void src with
  | ok roots =>
    cases h' : parse u cs void src' with
    | ok roots' => rw [hf roots roots' h h']; rfl
    | error e => rw [h, h'] at hb; simp at hb
  | error e =>
    cases h' : parse u cs void src' with
    | ok roots' => rw [h, h'] at hb; simp at hb
    | error e' =>
      rw [Props.C11_no_unwrap_fails u cs void src e h, Props.C11_no_unwrap_fails u cs void src' e' h']
      rfl

/-- A start tag does not change it either, except by the state it leaves. -/
theorem tag_broken {u : Uni} {cs : Bool} {pre z : Str} {tag : TagText} {cps : List Nat}
    (hpre : EndsInContent u cs pre) (hn : TagName tag.name) (hl : tag.Legal)
    (hraw : LegalName tag.name ∨ ∀ a ∈ tag.attrs, asciiLower a.name ≠ b!"type")
    (hu : Utf8 cps (pre ++ tag.print ++ (62 :: z))) :
    Broken u cs .WithinContent (pre ++ tag.print ++ (62 :: z)) ↔
      Broken u cs (afterStartTag { Sc.new 0 .WithinTag with lastTag := some (keptName (parserCfg u cs []) tag.name) }) z := by
  obtain ⟨a, t, hp, ht, ha⟩ := hpre
  have e : pre ++ tag.print ++ (62 :: z) = a ++ (t ++ (tag.print ++ 62 :: z)) := by rw [hp]; simp
  rw [e] at hu ⊢
  obtain ⟨cps', hu'⟩ := bracket_utf8 ha hu
  rw [broken_behind ha]
  obtain ⟨r, h, hr⟩ := parse_res (u := u) (cs := cs) (void := []) hu'
  obtain ⟨s1, hs1, h1⟩ := h.text (i := 0) (t := t) (x := tag.print ++ 62 :: z) ⟨rfl, rfl⟩ (by simp [parserCfg]) ht
  have hd : (parserCfg u cs (t ++ (tag.print ++ 62 :: z))).src.drop (0 + t.length) = tag.print ++ 62 :: z := by
    simp [parserCfg]
  obtain ⟨s2, p2, sp, ty, hs2, hty, _, h2, _, hp2⟩ := h1.start hs1 hd hn hl (.inl rfl)
  obtain ⟨s3, p3, hs3, hst3, h3, _⟩ := h2.close hs2 (drop_add hd rfl) (by rw [hp2]; simp)
  rw [← hr]
  have hst : s3.state = afterStartTag { Sc.new 0 .WithinTag with lastTag := some (keptName (parserCfg u cs []) tag.name) } := by
    rw [hst3]
    have hs0 : InOpen { Sc.new 0 .WithinTag with lastTag := some (keptName (parserCfg u cs []) tag.name) } 0
        (Sc.new 0 .WithinTag).hasSpace (keptName (parserCfg u cs []) tag.name) none := ⟨.inl rfl, rfl, rfl, rfl, rfl⟩
    rcases hraw with hraw | hraw
    · rw [afterStartTag_html hs2 (.inl hraw), afterStartTag_html hs0 (.inl hraw)]
    · exact afterStartTag_same hs0 hs2 rfl (hty fun a ha h => absurd h (hraw a ha))
  refine Res.none_iff (u := u) (cs := cs) (pre := t ++ tag.print ++ [62]) (y := z) (p := p3) (s := s3) (void := []) ?_ hst ?_ ?_
  · rw [show (parserCfg u cs z).behind (t ++ tag.print ++ [62]) = parserCfg u cs (t ++ (tag.print ++ 62 :: z)) by
      simp [parserCfg, Cfg.behind]]
    exact h3
  · rw [hs3]; simp; omega
  · unfold afterStartTag
    split
    · split <;> rfl
    · split <;> rfl

/-- Nor does a tag that closes itself. -/
theorem slash_broken {u : Uni} {cs : Bool} {pre z : Str} {tag : TagText} {cps : List Nat}
    (hpre : EndsInContent u cs pre) (hn : TagName tag.name) (hl : tag.Legal) (hf : SlashFree tag)
    (hu : Utf8 cps (pre ++ tag.print ++ (47 :: 62 :: z))) :
    Broken u cs .WithinContent (pre ++ tag.print ++ (47 :: 62 :: z)) ↔ Broken u cs .WithinContent z := by
  obtain ⟨a, t, hp, ht, ha⟩ := hpre
  have e : pre ++ tag.print ++ (47 :: 62 :: z) = a ++ (t ++ (tag.print ++ 47 :: 62 :: z)) := by rw [hp]; simp
  rw [e] at hu ⊢
  obtain ⟨cps', hu'⟩ := bracket_utf8 ha hu
  rw [broken_behind ha]
  obtain ⟨r, h, hr⟩ := parse_res (u := u) (cs := cs) (void := []) hu'
  obtain ⟨s1, hs1, h1⟩ := h.text (i := 0) (t := t) (x := tag.print ++ 47 :: 62 :: z) ⟨rfl, rfl⟩ (by simp [parserCfg]) ht
  have hd : (parserCfg u cs (t ++ (tag.print ++ 47 :: 62 :: z))).src.drop (0 + t.length) = tag.print ++ 47 :: 62 :: z := by
    simp [parserCfg]
  obtain ⟨s2, p2, sp, ty, hs2, hty, _, h2, _, hp2⟩ := h1.start hs1 hd hn hl (.inr ⟨rfl, hf⟩)
  obtain ⟨s3, p3, hs3, h3, _⟩ := h2.selfClose hs2 (drop_add hd rfl) (by rw [hp2]; simp)
  rw [← hr]
  refine Res.none_iff (u := u) (cs := cs) (pre := t ++ tag.print ++ [47, 62]) (y := z) (p := p3) (s := s3) (void := []) ?_ hs3.state ?_ rfl
  · rw [show (parserCfg u cs z).behind (t ++ tag.print ++ [47, 62]) = parserCfg u cs (t ++ (tag.print ++ 47 :: 62 :: z)) by
      simp [parserCfg, Cfg.behind]]
    exact h3
  · rw [hs3.pos]; simp; omega

end Html
