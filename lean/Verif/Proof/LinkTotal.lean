import Verif.Proof.Links
import Verif.Proof.Uri

/-!
# Document links: no panics, and the targets of the kinds of references
-/

namespace Html

open Spec

theorem contiguous_le {ts : List Tok} {a b : Nat} (h : Contiguous a ts b) : a ≤ b ∧ ∀ t ∈ ts, t.stop ≤ b := by
  induction ts generalizing a with
  | nil =>
    have : a = b := h
    exact ⟨by omega, by simp⟩
  | cons t ts ih =>
    obtain ⟨h1, h2, h3⟩ := h
    obtain ⟨i1, i2⟩ := ih h3
    refine ⟨by omega, ?_⟩
    intro x hx
    rw [List.mem_cons] at hx
    rcases hx with rfl | hx
    · exact i1
    · exact i2 x hx

theorem slashes_idem (s : Str) : slashes (slashes s) = slashes s := by
  unfold slashes
  rw [List.map_map]
  congr 1
  funext b
  simp only [Function.comp]
  split <;> simp_all

theorem slashes_take (s : Str) (i : Nat) : slashes ((slashes s).take i) = (slashes s).take i := by
  have h : ∀ l : Str, (∀ b ∈ l, b ≠ 92) → slashes l = l := by
    intro l hl
    unfold slashes
    conv => rhs; rw [← List.map_id l]
    apply List.map_congr_left
    intro b hb
    rw [if_neg (hl b hb)]
    rfl
  apply h
  intro b hb
  have hb := List.mem_of_mem_take hb
  unfold slashes at hb
  obtain ⟨c, _, rfl⟩ := List.mem_map.1 hb
  split <;> omega

theorem slashes_of_not_mem {l : Str} (h : 92 ∉ l) : slashes l = l := by
  unfold slashes
  conv => rhs; rw [← List.map_id l]
  apply List.map_congr_left
  intro b hb
  have hne : b ≠ 92 := by
    intro he
    rw [he] at hb
    exact h hb
  rw [if_neg hne]
  rfl

theorem lastQuestion_isSome {s : Str} (h : (splitUri s).query.isSome) : (lastQuestion s).isSome := by
  unfold lastQuestion
  have hm : 63 ∈ s := by
    unfold splitUri at h
    dsimp only at h
    have h1 : ∀ b ∈ (splitScheme s).2, b ∈ s := by
      unfold splitScheme
      dsimp only
      intro b hb
      split at hb
      · exact (List.dropWhile_suffix _).subset (List.mem_of_mem_tail hb)
      · exact hb
    have h2 : ∀ t, ∀ b ∈ (splitAuthority t).2, b ∈ t := by
      intro t b hb
      unfold splitAuthority at hb
      split at hb
      · have := (List.dropWhile_suffix _).subset hb
        simp [this]
      · exact hb
    generalize hr : (splitAuthority (splitScheme s).2).2 = r at h
    have h3 : ∀ b ∈ r, b ∈ s := by
      rw [← hr]; intro b hb; exact h1 b (h2 _ b hb)
    generalize hx : r.dropWhile (fun b => b != 63 && b != 35) = x at h
    cases x with
    | nil => simp [splitQuery] at h
    | cons b t =>
      by_cases hb : b = 63
      · subst hb
        exact h3 _ ((List.dropWhile_suffix _).subset (by rw [hx]; simp))
      · unfold splitQuery at h
        split at h
        · rename_i he
          simp at he
          exact absurd he.1 hb
        · cases h
  rw [if_pos hm]
  rfl

theorem cleanUri_total {e : LinkEnv} (hf : Forgiving e) (s : Str) : ∃ r, cleanUri e.lib s e.uri = .ok r := by
  unfold cleanUri
  cases hc : e.lib.create s with
  | none => exact ⟨none, rfl⟩
  | some s0 =>
    dsimp only
    have h0 : s0 = slashes s ∧ e.lib.valid s0 = true := by
      unfold UriLib.create at hc
      split at hc
      · rename_i hv
        injection hc with hc
        subst hc
        exact ⟨rfl, hv⟩
      · cases hc
    have h1 : ∃ s1, dropQuery e.lib s0 = .ok s1 ∧ e.lib.valid s1 = true ∧ slashes s1 = s1 := by
      unfold dropQuery
      split
      · rename_i hq
        obtain ⟨i, hi⟩ := Option.isSome_iff_exists.1 (lastQuestion_isSome hq.2)
        have hv := hf.cut s0 i h0.2 hq.1 hi
        have hsl : slashes (s0.take i) = s0.take i := by rw [h0.1]; exact slashes_take s i
        refine ⟨s0.take i, ?_, hv, hsl⟩
        rw [hi]
        simp only [unwrap, bind, Except.bind, UriLib.create, hsl, hv]
        rfl
      · exact ⟨s0, rfl, h0.2, by rw [h0.1]; exact slashes_idem s⟩
    obtain ⟨s1, hs1, hv1, hsl⟩ := h1
    rw [hs1]
    simp only [bind, Except.bind]
    split
    · rename_i hc
      have := hf.file s1 hv1 hc.1
      unfold UriLib.parse
      rw [if_pos this]
      exact ⟨_, rfl⟩
    · unfold UriLib.create
      rw [hsl, if_pos hv1]
      exact ⟨_, rfl⟩

theorem foldlM_total {α σ : Type} {f : σ → α → R σ} {l : List α} {s : σ}
    (h : ∀ s, ∀ a ∈ l, ∃ s', f s a = .ok s') : ∃ s', l.foldlM f s = .ok s' := by
  induction l generalizing s with
  | nil => exact ⟨s, rfl⟩
  | cons a l ih =>
    rw [List.foldlM_cons]
    obtain ⟨s1, h1⟩ := h s a (by simp)
    rw [h1]
    exact ih (fun s b hb => h s b (List.mem_cons_of_mem _ hb))

theorem mapM_total {α β : Type} {f : α → R β} {l : List α} (h : ∀ a ∈ l, ∃ b, f a = .ok b) :
    ∃ r, l.mapM f = .ok r := by
  induction l with
  | nil => exact ⟨[], rfl⟩
  | cons a l ih =>
    rw [List.mapM_cons]
    obtain ⟨b, hb⟩ := h a (by simp)
    obtain ⟨bs, hbs⟩ := ih (fun x hx => h x (List.mem_cons_of_mem _ hx))
    rw [hb, hbs]
    exact ⟨_, rfl⟩

theorem finishLink_total {e : LinkEnv} {d : TextDoc} (hf : Forgiving e) (ids : List (Str × Nat)) (l : DocLink) :
    ∃ r, finishLink e d ids l = .ok r := by
  unfold finishLink
  split
  · exact ⟨_, rfl⟩
  · split
    · split
      · have := hf.position (d.posAt (by assumption))
        unfold positionUri at this
        unfold UriLib.create
        simp only [this]
        exact ⟨_, rfl⟩
      · exact ⟨_, rfl⟩
    · exact ⟨_, rfl⟩

/-! ### Kinds of references -/

theorem validateRef_of_links {e : LinkEnv} {d : TextDoc} {links : List DocLink} {ts : List Tok}
    (h : findDocumentLinks e d = .ok links)
    (hts : tokens ⟨e.uni, d.text, false, e.caseSensitive⟩ (.new 0 .WithinContent) = .ok ts)
    {p : List Tok × Tok} (hp : p ∈ splits ts) (hv : isPathValue e d.text p = true)
    (hb : ¬ awaitsBase e d.text p.1) {x : Option Str}
    (hr : refersTo e (baseAt e d.text p.1) (text d.text p.2) = some x) :
    ⟨valueRange d p.2, finalTarget e d ts x⟩ ∈ links := by
  obtain ⟨ts', hts', hl⟩ := findDocumentLinks_ok h
  rw [hts] at hts'
  injection hts' with hts'
  subst hts'
  rw [hl, List.mem_map]
  refine ⟨(p.2, x), List.mem_filterMap.2 ⟨p, hp, ?_⟩, rfl⟩
  unfold linkOf
  rw [if_pos ⟨hv, hb⟩, hr]
  rfl

theorem trimStart_ascii {b : Nat} {t : Str} (hb : b < 128) (hs : isSpaceCP b = false) : trimStart (b :: t) = b :: t := by
  unfold trimStart runLen
  have h1 : isCont b = false := by unfold isCont; simp; omega
  have h2 : codePoint (b :: t) = b := by simp [codePoint, hb]
  rw [h1, h2, hs]
  rfl

/-! ### Decimal numbers -/

theorem numberOf_map (l : List Char) (n : Nat) :
    (l.map Char.toNat).foldl (fun n b => 10 * n + (b - 48)) n = Nat.ofDigitChars 10 l n := by
  induction l generalizing n with
  | nil => simp
  | cons c l ih => rw [List.map_cons, List.foldl_cons, ih, Nat.ofDigitChars_cons]; rfl

theorem toDigits_head (n : Nat) : 0 < n → ∃ c r, Nat.toDigits 10 n = c :: r ∧ c.toNat ≠ 48 := by
  induction n using Nat.strongRecOn with
  | ind n ih =>
    intro hn
    by_cases h : n < 10
    · refine ⟨_, [], Nat.toDigits_of_lt_base h, ?_⟩
      have := Nat.toNat_digitChar_sub_48_of_lt_ten h
      omega
    · obtain ⟨c, r, hr, hc⟩ := ih (n / 10) (by omega) (by omega)
      rw [Nat.toDigits_of_base_le (by omega) (by omega), hr]
      exact ⟨c, _, rfl, hc⟩

theorem decimal_writes {n : Nat} (hn : 0 < n) : Writes (decimal n) n := by
  refine ⟨fun b hb => ?_, ?_, ?_⟩
  · obtain ⟨c, hc, rfl⟩ := List.mem_map.1 hb
    have := Nat.isDigit_of_mem_toDigits (by omega) (by omega) hc
    simp only [Char.isDigit, Bool.and_eq_true, decide_eq_true_eq] at this
    exact ⟨this.1, this.2⟩
  · obtain ⟨c, r, hr, hc⟩ := toDigits_head n hn
    exact ⟨c.toNat, r.map Char.toNat, by rw [decimal, hr]; rfl, hc⟩
  · unfold numberOf decimal
    rw [numberOf_map, Nat.ofDigitChars_ten_toDigits]

end Html
