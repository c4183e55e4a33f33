import Verif.Proof.Run
import Verif.Proof.Text

/-! # Consequences for whole runs -/

namespace Html
open Spec

theorem Step.offset_eq {c : Cfg} {s s' : Sc} (h : Step c s s') : s'.tokenOffset = s.pos := h.facts.1

theorem Step.pos_le {c : Cfg} {s s' : Sc} (h : Step c s s') (hp : s.pos ≤ c.src.length) :
    s.pos ≤ s'.pos ∧ s'.pos ≤ c.src.length := by
  obtain ⟨_, h1 | ⟨h0, h1 | h1⟩⟩ := h.facts
  · have := congrArg Sc.pos h1.2; simp only [fin] at this; omega
  · have := h1.2; omega
  · have := h1.2.1; omega

theorem Step.offset_le {c : Cfg} {s s' : Sc} (h : Step c s s') : s'.tokenOffset ≤ s'.pos := by
  obtain ⟨h0, h1 | ⟨h1, _⟩⟩ := h.facts
  · rw [h1.2]; exact Nat.le_refl _
  · have := (h.pos_le (Nat.le_of_lt h1)).1
    omega

theorem Step.eos_iff {c : Cfg} {s s' : Sc} (h : Step c s s') :
    s'.tokenType = .EOS ↔ c.src.length ≤ s.pos := by
  obtain ⟨_, h1 | ⟨h0, h1 | h1⟩⟩ := h.facts
  · exact ⟨fun _ => h1.1, fun _ => by rw [h1.2]; rfl⟩
  · exact ⟨fun h => absurd h h1.1, fun h => by omega⟩
  · refine ⟨fun h => ?_, fun h => by omega⟩
    rcases h1.2.2.2.2.2 with ⟨h2, _⟩ | ⟨h2, _⟩ <;> rw [h2] at h <;> cases h

theorem Run.contiguous {c : Cfg} {s s2 : Sc} {ts : List Tok} (h : Run c s ts s2)
    (hp : s.pos ≤ c.src.length) :
    Contiguous s.pos ts s2.pos ∧ s.pos ≤ s2.pos ∧ s2.pos ≤ c.src.length ∧
      ts.flatMap (text c.src) = bytesIn c.src s.pos s2.pos := by
  induction h with
  | nil s => exact ⟨rfl, Nat.le_refl _, hp, by simp [bytesIn_self]⟩
  | @cons s s1 s2 ts h hne hr ih =>
    have hst := scan_step h
    obtain ⟨h1, h2⟩ := hst.pos_le hp
    obtain ⟨i1, i2, i3, i4⟩ := ih h2
    refine ⟨⟨hst.offset_eq, ?_, i1⟩, by omega, i3, ?_⟩
    · show s1.tokenOffset ≤ s1.pos
      rw [hst.offset_eq]; exact h1
    · rw [List.flatMap_cons, i4]
      show bytesIn c.src s1.tokenOffset s1.pos ++ _ = _
      rw [hst.offset_eq, bytesIn_append h1 i2]

theorem Run.mem {c : Cfg} {s s2 : Sc} {ts : List Tok} (h : Run c s ts s2) {t : Tok} (ht : t ∈ ts) :
    ∃ s0 s1, Step c s0 s1 ∧ s1.tokenType ≠ .EOS ∧ t = s1.tok := by
  induction h with
  | nil s => cases ht
  | @cons s s1 s2 ts h hne hr ih =>
    rcases List.mem_cons.1 ht with rfl | ht
    · exact ⟨s, s1, scan_step h, hne, rfl⟩
    · exact ih ht

theorem scan_eos {c : Cfg} {s : Sc} (h : c.src.length ≤ s.pos) : scan c s = .ok (fin s s.pos .EOS none) := by
  rw [scan_eq_internalScan]
  unfold internalScan
  rw [eos_true h]; rfl

theorem scanN_eos {c : Cfg} {n : Nat} {s : Sc} (h : c.src.length ≤ s.pos) :
    scanN c (n + 1) s = .ok (fin s s.pos .EOS none) := by
  induction n generalizing s with
  | zero => unfold scanN; rw [scan_eos h]; rfl
  | succ n ih =>
    rw [scanN, scan_eos h]
    show scanN c (n + 1) _ = _
    rw [ih (by exact h)]; rfl

theorem scanN_mu {c : Cfg} {n : Nat} {s s' : Sc} (hn : mu c s < n) (hp : s.pos ≤ c.src.length)
    (h : scanN c n s = .ok s') : s'.tokenType = .EOS := by
  induction n generalizing s with
  | zero => omega
  | succ n ih =>
    unfold scanN at h
    obtain ⟨s1, h1, h⟩ := bind_ok h
    have hst := scan_step h1
    by_cases he : s1.tokenType = .EOS
    · have hl := hst.eos_iff.1 he
      cases n with
      | zero => cases h; exact he
      | succ n =>
        have hl1 : c.src.length ≤ s1.pos := by have := (hst.pos_le hp).1; omega
        rw [scanN_eos hl1] at h
        cases h; rfl
    · have := hst.mu_lt he
      exact ih (by omega) (hst.pos_le hp).2 h

theorem scanN_err {c : Cfg} {n : Nat} {s : Sc} {e : Panic} (h : scanN c n s = .error e) :
    e = .slice := by
  induction n generalizing s with
  | zero => cases h
  | succ n ih =>
    unfold scanN at h
    rcases bind_err h with h | ⟨s1, h1, h⟩
    · exact scan_err h
    · exact ih h

theorem tokensF_fuel {c : Cfg} {f : Nat} {s : Sc} (hf : mu c s < f) (g : Nat) :
    tokensF c (f + g) s = tokensF c f s := by
  induction f generalizing s with
  | zero => omega
  | succ f ih =>
    have e : f + 1 + g = (f + g) + 1 := by omega
    rw [e]
    unfold tokensF
    cases h1 : scan c s with
    | error e => rfl
    | ok s1 =>
      simp only [bind, Except.bind]
      split
      · rfl
      · rename_i hne
        have := (scan_step h1).mu_lt hne
        rw [ih (by omega)]

theorem tokens_run {c : Cfg} {s : Sc} {ts : List Tok} (h : tokens c s = .ok ts) :
    ∃ s2, Run c s ts s2 ∧ c.src.length ≤ s2.pos := by
  obtain ⟨s2, s3, h1, h2, h3⟩ := tokensF_run h
  exact ⟨s2, h1, (scan_step h2).eos_iff.1 h3⟩

end Html
