import Verif.Proof.Panics

/-! # Printed documents are parsed, whatever characters they contain -/

namespace Html
open Spec

variable {c : Cfg} {void : List Str}

theorem parseLoop_fails {f : Nat} {p : PState} {s : Sc} {e : Panic} (hc : AsciiNext c.src) (hlast : LastByte c.src)
    (hi : PInv c void p s) (hw : WInv c s) (hle : s.pos ≤ c.src.length) (hf : mu c s < f)
    (h : parseLoop c void f p s = .error e) : Fails c void p s := by
  induction f generalizing p s with
  | zero => omega
  | succ f ih =>
    unfold parseLoop at h
    rcases bind_err h with h | ⟨s1, h1, h⟩
    · refine .here h ?_ ((scan_panics_iff hc hlast hw hle).1 ⟨e, h⟩)
      apply Decidable.byContradiction
      intro hp
      rw [scan_eos (by omega)] at h
      cases h
    · have hst := scan_step h1
      split at h
      · cases h
      · rename_i hne
        obtain ⟨p2, h3, h4⟩ := hi.step hst hne (hst.text_ok hc)
        rw [h3] at h
        exact .step h1 hne h3 (ih h4 (hst.winv hc hw) (hst.pos_le hle).2 (by have := hst.mu_lt hne; omega) h)

/-- A printed document is parsed. -/
theorem parse_print_ok {u : Uni} {cs : Bool} {items : List Item} {cps : List Nat} (hl : AllLegal void items)
    (hu : Utf8 cps (printAll items)) : ∃ roots, parse u cs void (printAll items) = .ok roots := by
  cases h : parse u cs void (printAll items) with
  | ok roots => exact ⟨roots, rfl⟩
  | error e =>
    exfalso
    unfold parse at h
    have hf : Fails (parserCfg u cs (printAll items)) void (.init (printAll items).length) (.new 0 .WithinContent) := by
      rcases bind_err h with h | ⟨p, _, h⟩
      · refine parseLoop_fails (c := parserCfg u cs (printAll items)) (asciiNext_of_utf8 hu) (lastByte_of_utf8 hu)
          PInv.init (.inr (.inl rfl)) (Nat.zero_le _) ?_ h
        unfold mu Sc.new parserCfg; simp only; split <;> omega
      · cases h
    obtain ⟨s2, p2, hs2, h2, _⟩ := Res.items (r := none) (x := []) (i := 0) hf ⟨rfl, rfl⟩ items (by simp [parserCfg]) hl
    exact Fails.done h2 (by rw [hs2.pos]; simp [parserCfg])

end Html
