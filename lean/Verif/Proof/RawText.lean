import Verif.Spec.RawText
import Verif.Proof.Print
import Verif.Proof.Selection

/-!
# Where the content of scripts and style sheets ends (for C10)
-/

namespace Html
open Spec

/-! ### The marks -/

theorem scriptMark_mono {x y : Str} (h : ScriptMark x) : ScriptMark (x ++ y) := by
  obtain ⟨m, h1, h2⟩ := h
  exact ⟨m, h1, h2.trans (List.prefix_append _ _)⟩

theorem scriptMark_head {b : Nat} {x : Str} (h : ScriptMark (b :: x)) : b = 60 ∨ b = 45 := by
  obtain ⟨m, h1, t, h2⟩ := h
  simp only [List.mem_cons, List.not_mem_nil, or_false] at h1
  rcases h1 with rfl | rfl | rfl | rfl <;> simp at h2 <;> omega

theorem scriptMark_nil : ¬ ScriptMark [] := by
  rintro ⟨m, h1, h2⟩
  simp only [List.mem_cons, List.not_mem_nil, or_false] at h1
  rcases h1 with rfl | rfl | rfl | rfl <;> simp at h2

/-- A mark cannot reach into a `<`. -/
theorem scriptMark_inside {b : Nat} {x y : Str} (hy : y = [] ∨ ∃ z, y = 60 :: z)
    (h : ScriptMark (b :: x ++ y)) : ScriptMark (b :: x) := by
  rcases hy with rfl | ⟨z, rfl⟩
  · rwa [List.append_nil] at h
  · obtain ⟨m, h1, h2⟩ := h
    refine ⟨m, h1, ?_⟩
    have key : ∀ (a : Nat) (q : Str), 60 ∉ q → (a :: q) <+: (b :: x ++ 60 :: z) → (a :: q) <+: (b :: x) := by
      intro a q hq h
      rw [List.cons_append, List.cons_prefix_cons] at h
      obtain ⟨y', rfl⟩ := prefix_inside hq (List.isPrefixOf_iff_prefix.2 h.2)
      rw [h.1]
      exact ⟨y', by simp⟩
    simp only [List.mem_cons, List.not_mem_nil, or_false] at h1
    rcases h1 with rfl | rfl | rfl | rfl
    · exact key _ _ (by decide) h2
    · exact key _ _ (by decide) h2
    · exact key _ _ (by decide) h2
    · exact key _ _ (by decide) h2

theorem scriptMatchAt_none {s : Str} (h : scriptMatchAt s = none) : ¬ ScriptMark s := by
  unfold scriptMatchAt at h
  split at h
  · cases h
  · rename_i h1
    split at h
    · cases h
    · rename_i h2
      split at h
      · cases h
      · rename_i h3
        split at h
        · cases h
        · rename_i h4
          rw [List.isPrefixOf_iff_prefix] at h1 h2 h3 h4
          rintro ⟨m, hm, hp⟩
          simp only [List.mem_cons, List.not_mem_nil, or_false] at hm
          rcases hm with rfl | rfl | rfl | rfl
          · exact h1 hp
          · exact h2 hp
          · exact h3 hp
          · exact h4 hp

theorem scriptFind_skips {s : Str} {k : ScriptMatch} {i n : Nat} (h : scriptFind s = some (k, i, n)) :
    ∀ j, j < i → ¬ ScriptMark (s.drop j) := by
  induction s generalizing i with
  | nil => simp [scriptFind] at h
  | cons b t ih =>
    unfold scriptFind at h
    split at h
    · cases h
      intro j hj; omega
    · rename_i hm
      simp only [Option.map_eq_some_iff] at h
      obtain ⟨⟨k', i', n'⟩, h1, h2⟩ := h
      cases h2
      intro j hj
      cases j with
      | zero => exact scriptMatchAt_none hm
      | succ j => exact ih h1 j (by simp only at hj; omega)

theorem scriptFind_none {s : Str} (h : scriptFind s = none) : ∀ j, ¬ ScriptMark (s.drop j) := by
  induction s with
  | nil => intro j; simp; exact scriptMark_nil
  | cons b t ih =>
    unfold scriptFind at h
    split at h
    · cases h
    · rename_i hm
      simp only [Option.map_eq_none_iff] at h
      intro j
      cases j with
      | zero => exact scriptMatchAt_none hm
      | succ j => exact ih h j

/-! ### Reading over bytes that begin no mark -/

theorem reads_drop {m m' : ScriptMode} {s : Str} {i : Nat} (hi : i ≤ s.length)
    (hs : ∀ j, j < i → ¬ ScriptMark (s.drop j)) (h : Reads m (s.drop i) m') : Reads m s m' := by
  induction i generalizing s with
  | zero => exact h
  | succ i ih =>
    cases s with
    | nil => simp at hi
    | cons b t =>
      refine .other (hs 0 (by omega)) (ih (by simpa using hi) (fun j hj => ?_) (by simpa using h))
      have := hs (j + 1) (by omega)
      simpa using this

theorem runLen_ne {q : Nat → Bool} {d : Nat} (hq : q d = false) (hd : d < 128) (y z : Str) :
    runLen q (y ++ d :: z) ≤ y.length := by
  induction y with
  | nil =>
    have h1 : isCont d = false := by unfold isCont; simp; omega
    have h2 : codePoint (d :: z) = d := by
      unfold codePoint
      have : d < 0x80 := hd
      simp [this]
    simp [runLen, h1, h2, hq]
  | cons b y ih =>
    simp only [List.cons_append, runLen, List.length_cons]
    split <;> (try split) <;> omega

theorem scriptTail_ne {t : Str} {j d : Nat} (hj : j < scriptTailLen t) (h : t[j]? = some d) : d ≠ 60 ∧ d ≠ 45 := by
  have key : ∀ d, d < 128 → isSpaceCP d = false → d ≠ 47 → d ≠ 62 → t[j]? ≠ some d := by
    intro d hd hq h47 h62 h
    have hlt : j < t.length := by
      rcases Nat.lt_or_ge j t.length with h1 | h1
      · exact h1
      · rw [List.getElem?_eq_none h1] at h; cases h
    have hsplit : t = t.take j ++ d :: t.drop (j + 1) := by
      rw [List.getElem?_eq_getElem hlt] at h
      cases h
      simp
    have hn : runLen isSpaceCP t ≤ j := by
      have := runLen_ne hq hd (t.take j) (t.drop (j + 1))
      rw [← hsplit] at this
      simp at this; omega
    unfold scriptTailLen at hj
    simp only at hj
    generalize runLen isSpaceCP t = n at hj hn
    simp only [List.head?_drop, List.drop_drop] at hj
    by_cases h1 : t[n]? = some 47
    · rw [if_pos h1] at hj
      by_cases h2 : t[n + 1]? = some 62
      · rw [if_pos h2] at hj
        have : j = n ∨ j = n + 1 := by omega
        rcases this with rfl | rfl
        · rw [h1] at h; cases h; exact h47 rfl
        · rw [h2] at h; cases h; exact h62 rfl
      · rw [if_neg h2] at hj
        have : j = n := by omega
        subst this
        rw [h1] at h; cases h; exact h47 rfl
    · rw [if_neg h1] at hj
      by_cases h2 : t[n + 0]? = some 62
      · rw [if_pos h2] at hj
        have : j = n := by omega
        subst this
        rw [Nat.add_zero] at h2
        rw [h2] at h; cases h; exact h62 rfl
      · rw [if_neg h2] at hj
        omega
  constructor
  · rintro rfl; exact key 60 (by omega) rfl (by omega) (by omega) h
  · rintro rfl; exact key 45 (by omega) rfl (by omega) (by omega) h

/-- What follows `<script` or `</script` in the expression of the scanner contains no mark. -/
theorem reads_tail {m m' : ScriptMode} {t : Str} {e : Nat} (he : scriptTailLen t ≤ e) (hl : e ≤ t.length)
    (h : Reads m ((t.take e).drop (scriptTailLen t)) m') : Reads m (t.take e) m' := by
  refine reads_drop (i := scriptTailLen t) (by simp; omega) (fun j hj hm => ?_) h
  have hlt : j < (t.take e).length := by simp; omega
  rw [List.drop_eq_getElem_cons hlt] at hm
  have hg : t[j]? = some (t.take e)[j] := by
    rw [List.getElem_take]; exact List.getElem?_eq_getElem _
  have := scriptTail_ne hj hg
  have := scriptMark_head hm
  omega

/-- The modes as the scanner counts them. -/
def modeOf (st : Nat) : ScriptMode := if st = 1 then .plain else if st = 2 then .comment else .nested

/-- What the loop has read when it stops. -/
def ReadsTo (src : Str) (m : ScriptMode) (pos : Nat) : ScriptEnd → Prop
  | .noMatch => ∃ m', Reads m (bytesIn src pos src.length) m'
  | .at p => ∃ m', Reads m (bytesIn src pos p) m' ∧ (p = src.length ∨ (m' ≠ .nested ∧ At src p b!"</script"))

theorem script_prefix {pat s : Str} (h : pat.isPrefixOf s = true) : s = pat ++ s.drop pat.length := by
  rw [List.isPrefixOf_iff_prefix] at h
  obtain ⟨t, rfl⟩ := h
  simp

theorem scriptLoop_reads {c : Cfg} {f st pos : Nat} {e : ScriptEnd} (hp : pos ≤ c.src.length)
    (hst : st = 1 ∨ st = 2 ∨ st = 3) (h : scriptLoop c f st pos = .ok e) :
    ReadsTo c.src (modeOf st) pos e := by
  induction f generalizing st pos with
  | zero => cases h
  | succ f ih =>
    unfold scriptLoop at h
    split at h
    · cases h
      have : pos = c.src.length := by omega
      subst this
      exact ⟨_, by rw [show bytesIn c.src c.src.length c.src.length = [] by simp [bytesIn]]; exact .nil _, .inl rfl⟩
    · rename_i hlt
      obtain ⟨r, hr, h⟩ := bind_ok h
      obtain ⟨_, _, _, _, hr⟩ := sliceStr_ok hr
      rw [bytesIn_to_end] at hr
      have hbi : ∀ p, pos ≤ p → bytesIn c.src pos p = r.take (p - pos) := by
        intro p hp
        rw [hr, ← bytesIn_eq_take]
        congr 1; omega
      have hrl : r.length = c.src.length - pos := by rw [hr]; simp
      split at h
      · rename_i hf
        cases h
        refine ⟨modeOf st, ?_⟩
        have hn := scriptFind_none hf
        rw [hbi _ hp, ← hrl, List.take_length]
        exact reads_drop (Nat.le_refl _) (fun j _ => hn j) (by simp; exact .nil _)
      · rename_i k i n hf
        obtain ⟨hn0, hin, hma⟩ := scriptFind_le hf
        have hsk := scriptFind_skips hf
        have hp' : pos + i + n ≤ c.src.length := by omega
        -- from the mark on
        have lift : ∀ (q : Nat) (m : ScriptMode), pos + i ≤ q → q ≤ c.src.length →
            Reads (modeOf st) (bytesIn c.src (pos + i) q) m → Reads (modeOf st) (bytesIn c.src pos q) m := by
          intro q m h1 h2 h3
          have hb : bytesIn c.src (pos + i) q = (bytesIn c.src pos q).drop i := by
            unfold bytesIn; rw [List.drop_drop]
          rw [hb] at h3
          have hl : (bytesIn c.src pos q).length = q - pos := bytesIn_length h2
          refine reads_drop (by omega) (fun j hj hm => hsk j hj ?_) h3
          rw [hbi q (by omega), List.drop_take] at hm
          have := scriptMark_mono (y := (r.drop j).drop (q - pos - j)) hm
          rwa [List.take_append_drop] at this
        -- behind the mark and its tail
        have next : ∀ (pat : Str) (st' : Nat), (st' = 1 ∨ st' = 2 ∨ st' = 3) →
            scriptLoop c f st' (pos + i + n) = .ok e →
            (n = pat.length ∨ n = pat.length + scriptTailLen ((r.drop i).drop pat.length)) →
            pat.isPrefixOf (r.drop i) = true →
            (∀ (x : Str) (m : ScriptMode), Reads (modeOf st') x m → Reads (modeOf st) (pat ++ x) m) →
            ReadsTo c.src (modeOf st) pos e := by
          intro pat st' hst' hl hn hpat hstep
          have hih := ih hp' hst' hl
          have hpl : pat.length ≤ n := by omega
          have hdi : r.drop i = c.src.drop (pos + i) := by rw [hr, List.drop_drop]
          have hsp := script_prefix hpat
          have key : ∀ (q : Nat) (m : ScriptMode), pos + i + n ≤ q → q ≤ c.src.length →
              Reads (modeOf st') (bytesIn c.src (pos + i + n) q) m → Reads (modeOf st) (bytesIn c.src pos q) m := by
            intro q m h1 h2 h3
            refine lift q m (by omega) h2 ?_
            have hx : bytesIn c.src (pos + i) q =
                pat ++ ((r.drop i).drop pat.length).take (q - (pos + i) - pat.length) := by
              have e1 : bytesIn c.src (pos + i) q = (c.src.drop (pos + i)).take (q - (pos + i)) := by
                rw [← bytesIn_eq_take]; congr 1; omega
              rw [e1, ← hdi]
              conv => lhs; rw [hsp]
              rw [List.take_append, List.take_of_length_le (by omega)]
            rw [hx]
            refine hstep _ _ ?_
            have e2 : bytesIn c.src (pos + i + n) q =
                (((r.drop i).drop pat.length).take (q - (pos + i) - pat.length)).drop (n - pat.length) := by
              have e1 : bytesIn c.src (pos + i + n) q = (c.src.drop (pos + i + n)).take (q - (pos + i + n)) := by
                rw [← bytesIn_eq_take]; congr 1; omega
              rw [e1, List.drop_take, List.drop_drop, hdi, List.drop_drop]
              congr 1
              · omega
              · congr 1; omega
            rw [e2] at h3
            rcases hn with hn | hn
            · rw [hn, Nat.sub_self, List.drop_zero] at h3; exact h3
            · have e3 : n - pat.length = scriptTailLen ((r.drop i).drop pat.length) := by omega
              rw [e3] at h3
              refine reads_tail (by omega) ?_ h3
              simp; omega
          cases e with
          | noMatch =>
            obtain ⟨m, h1⟩ := hih
            exact ⟨m, key _ _ hp' (Nat.le_refl _) h1⟩
          | «at» p =>
            obtain ⟨m, h1, h2⟩ := hih
            have hat := scriptLoop_at hp' hl
            exact ⟨m, key _ _ hat.1 hat.2.1 h1, h2⟩
        unfold scriptMatchAt at hma
        split at hma
        · rename_i hpat
          cases hma
          refine next b!"<!--" (if st = 1 then 2 else st) (by split <;> omega) h (.inl rfl) hpat (fun x m hx => .opened ?_)
          rcases hst with rfl | rfl | rfl <;> exact hx
        · split at hma
          · rename_i hpat
            cases hma
            exact next b!"-->" 1 (by omega) h (.inl rfl) hpat (fun x m hx => .closed hx)
          · split at hma
            · rename_i hpat
              cases hma
              refine next b!"<script" (if st = 2 then 3 else st) (by split <;> omega) h (.inr rfl) hpat
                (fun x m hx => .entered ?_)
              rcases hst with rfl | rfl | rfl <;> exact hx
            · split at hma
              · rename_i hpat
                cases hma
                dsimp only at h
                split at h
                · rename_i h3
                  exact next b!"</script" 2 (by omega) h (.inr rfl) hpat (fun x m hx => by rw [h3]; exact .left hx)
                · rename_i h3
                  obtain ⟨q, hq, h⟩ := bind_ok h
                  cases h
                  obtain ⟨_, hq2⟩ := subU_ok hq
                  have hq3 : q = pos + i := by omega
                  subst hq3
                  refine ⟨modeOf st, lift _ _ (Nat.le_refl _) (by omega) ?_, .inr ⟨?_, ?_⟩⟩
                  · have : bytesIn c.src (pos + i) (pos + i) = [] := by simp [bytesIn]
                    rw [this]; exact .nil _
                  · rcases hst with rfl | rfl | rfl
                    · decide
                    · decide
                    · exact absurd rfl h3
                  · rw [List.isPrefixOf_iff_prefix] at hpat
                    obtain ⟨t, ht⟩ := hpat
                    exact ⟨t, by rw [← List.drop_drop, ← hr, ht]⟩
              · cases hma

/-! ### There is only one end -/

/-- The text ends, or an end tag follows that ends the script. -/
def EndsHere (m : ScriptMode) (y : Str) : Prop := y = [] ∨ (m ≠ .nested ∧ ∃ z, y = b!"</script" ++ z)

theorem EndsHere.sep {m : ScriptMode} {y : Str} (h : EndsHere m y) : y = [] ∨ ∃ z, y = 60 :: z := by
  rcases h with h | ⟨_, z, h⟩
  · exact .inl h
  · exact .inr ⟨_, h⟩

theorem reads_stop {m m' : ScriptMode} {b y x : Str} (h : Reads m b m') (hx : EndsHere m x) (e : b ++ y = x)
    (hy : EndsHere m' y) : b = [] := by
  have hsep := hy.sep
  rcases hx with rfl | ⟨hm, z, rfl⟩
  · exact (List.append_eq_nil_iff.1 e).1
  · cases h with
    | nil => rfl
    | opened h => simp at e
    | closed h => simp at e
    | entered h => simp at e
    | left h => exact absurd rfl hm
    | other h1 h2 =>
      exfalso
      refine h1 (scriptMark_inside hsep (y := y) ?_)
      rw [e]
      exact ⟨b!"</script", by simp, List.prefix_append _ _⟩

theorem reads_unique {m v w : ScriptMode} {a b x y : Str} (ha : Reads m a v) (hb : Reads m b w)
    (hx : EndsHere v x) (hy : EndsHere w y) (e : a ++ x = b ++ y) : a = b := by
  induction ha generalizing b with
  | nil m =>
    exact (reads_stop hb hx e.symm hy).symm
  | @opened m m' r h ih =>
    have hsep := hy.sep
    cases hb with
    | nil =>
      rcases hy with rfl | ⟨hm, z, rfl⟩ <;> simp at e
    | opened h' =>
      rw [ih h' hx (by simpa using e)]
    | closed h' => simp at e
    | entered h' => simp at e
    | left h' => simp at e
    | other h1 h2 =>
      exfalso
      refine h1 (scriptMark_inside hsep (y := y) ?_)
      rw [← e]
      exact ⟨b!"<!--", by simp, by rw [List.append_assoc]; exact List.prefix_append _ _⟩
  | @closed m m' r h ih =>
    have hsep := hy.sep
    cases hb with
    | nil =>
      rcases hy with rfl | ⟨hm, z, rfl⟩ <;> simp at e
    | opened h' => simp at e
    | closed h' => rw [ih h' hx (by simpa using e)]
    | entered h' => simp at e
    | left h' => simp at e
    | other h1 h2 =>
      exfalso
      refine h1 (scriptMark_inside hsep (y := y) ?_)
      rw [← e]
      exact ⟨b!"-->", by simp, by rw [List.append_assoc]; exact List.prefix_append _ _⟩
  | @entered m m' r h ih =>
    have hsep := hy.sep
    cases hb with
    | nil =>
      rcases hy with rfl | ⟨hm, z, rfl⟩ <;> simp at e
    | opened h' => simp at e
    | closed h' => simp at e
    | entered h' => rw [ih h' hx (by simpa using e)]
    | left h' => simp at e
    | other h1 h2 =>
      exfalso
      refine h1 (scriptMark_inside hsep (y := y) ?_)
      rw [← e]
      exact ⟨b!"<script", by simp, by rw [List.append_assoc]; exact List.prefix_append _ _⟩
  | @left m' r h ih =>
    have hsep := hy.sep
    cases hb with
    | nil =>
      rcases hy with rfl | ⟨hm, z, rfl⟩
      · simp at e
      · exact absurd rfl hm
    | opened h' => simp at e
    | closed h' => simp at e
    | entered h' => simp at e
    | left h' => rw [ih h' hx (by simpa using e)]
    | other h1 h2 =>
      exfalso
      refine h1 (scriptMark_inside hsep (y := y) ?_)
      rw [← e]
      exact ⟨b!"</script", by simp, by rw [List.append_assoc]; exact List.prefix_append _ _⟩
  | @other m m' c r hn h ih =>
    have hsx := hx.sep
    have hmark : ∀ pat y', pat ∈ [b!"<!--", b!"-->", b!"<script", b!"</script"] → c :: r ++ x = pat ++ y' → False := by
      intro pat y' hp he
      refine hn (scriptMark_inside hsx (y := x) ?_)
      rw [he]
      exact ⟨pat, hp, List.prefix_append _ _⟩
    cases hb with
    | nil =>
      rcases hy with rfl | ⟨hm, z, rfl⟩
      · simp at e
      · exact (hmark b!"</script" z (by simp) e).elim
    | opened h' => exact (hmark b!"<!--" _ (by simp) (by rw [e, List.append_assoc])).elim
    | closed h' => exact (hmark b!"-->" _ (by simp) (by rw [e, List.append_assoc])).elim
    | entered h' => exact (hmark b!"<script" _ (by simp) (by rw [e, List.append_assoc])).elim
    | left h' => exact (hmark b!"</script" _ (by simp) (by rw [e, List.append_assoc])).elim
    | other h1 h2 =>
      simp only [List.cons_append, List.cons.injEq] at e
      rw [ih h2 hx e.2, e.1]

theorem scriptBody_unique {src : Str} {o a b : Nat} (ha : ScriptBody src o a) (hb : ScriptBody src o b) : a = b := by
  obtain ⟨h1, h2, m, h3, h4⟩ := ha
  obtain ⟨k1, k2, m', k3, k4⟩ := hb
  have ends : ∀ {m : ScriptMode} {e : Nat}, (e = src.length ∨ (m ≠ .nested ∧ At src e b!"</script")) →
      EndsHere m (src.drop e) := by
    intro m e h
    rcases h with rfl | ⟨h, r, hr⟩
    · exact .inl (by simp)
    · exact .inr ⟨h, r, hr⟩
  have e1 : ∀ e, o ≤ e → bytesIn src o e ++ src.drop e = src.drop o := by
    intro e he
    unfold bytesIn
    rw [← List.drop_append_of_le_length (by simp; omega), List.take_append_drop]
  have := reads_unique h3 k3 (ends h4) (ends k4) (by rw [e1 a h1, e1 b k1])
  have := congrArg List.length this
  rw [bytesIn_length h2, bytesIn_length k2] at this
  omega

theorem scriptToken_body {c : Cfg} {s0 s1 : Sc} (h : Step c s0 s1) (ht : s1.tokenType = .Script) :
    ScriptBody c.src s0.pos s1.pos := by
  cases h with
  | content _ h hs hx => cases hx <;> simp [fin] at ht
  | endTag _ h hs hx => cases hx <;> simp [fin] at ht
  | tag _ h hs hx => cases hx <;> simp [fin] at ht
  | afterNameTag _ h hs hw h0 hx => cases hx <;> simp [fin] at ht
  | valueTag _ h hs hw hb h0 h1 hx => cases hx <;> simp [fin] at ht
  | scriptContent _ h hs hl hx => cases hx <;> simp [fin] at ht
  | styleContent _ h hs hb h0 hx => cases hx <;> simp [fin] at ht
  | script p st h hs hp hl hst =>
    refine ⟨Nat.le_of_lt hp, hl, ?_⟩
    rcases hst with ⟨_, hst⟩ | ⟨_, rfl, hst⟩
    · exact scriptLoop_reads (Nat.le_of_lt h) (.inl rfl) hst
    · obtain ⟨m, hm⟩ := scriptLoop_reads (Nat.le_of_lt h) (.inl rfl) hst
      exact ⟨m, hm, .inl rfl⟩
  | _ => simp [fin] at ht

theorem styleToken_body {c : Cfg} {s0 s1 : Sc} (h : Step c s0 s1) (ht : s1.tokenType = .Styles) :
    StyleBody c.src s0.pos s1.pos := by
  cases h with
  | content _ h hs hx => cases hx <;> simp [fin] at ht
  | endTag _ h hs hx => cases hx <;> simp [fin] at ht
  | tag _ h hs hx => cases hx <;> simp [fin] at ht
  | afterNameTag _ h hs hw h0 hx => cases hx <;> simp [fin] at ht
  | valueTag _ h hs hw hb h0 h1 hx => cases hx <;> simp [fin] at ht
  | scriptContent _ h hs hl hx => cases hx <;> simp [fin] at ht
  | styleContent _ h hs hb h0 hx => cases hx <;> simp [fin] at ht
  | style h hs hb h0 =>
    have hle := untilLit_le b!"</style" (rest c s0)
    have hlen := rest_length c s0
    show StyleBody c.src s0.pos (s0.pos + untilLit b!"</style" (rest c s0))
    refine ⟨by omega, by omega, fun i h1 h2 ⟨r, hr⟩ => ?_, ?_⟩
    · have := untilLit_none (l := b!"</style") (s := rest c s0) (i := i - s0.pos) (by omega)
      unfold rest at this
      rw [List.drop_drop, show s0.pos + (i - s0.pos) = i by omega, hr] at this
      simp at this
    · by_cases hlt : untilLit b!"</style" (rest c s0) < (rest c s0).length
      · right
        have := untilLit_prefix hlt
        rw [List.isPrefixOf_iff_prefix] at this
        obtain ⟨r, hr⟩ := this
        refine ⟨r, ?_⟩
        rw [← List.drop_drop]
        exact hr.symm
      · left; omega
  | _ => simp [fin] at ht

theorem styleBody_unique {src : Str} {o a b : Nat} (ha : StyleBody src o a) (hb : StyleBody src o b) : a = b := by
  obtain ⟨h1, h2, h3, h4⟩ := ha
  obtain ⟨k1, k2, k3, k4⟩ := hb
  have key : ∀ {a b : Nat}, o ≤ a → b ≤ src.length → (∀ i, o ≤ i → i < b → ¬ At src i b!"</style") →
      (a = src.length ∨ At src a b!"</style") → b ≤ a := by
    intro a b h1 h2 h3 h4
    rcases h4 with h4 | h4
    · omega
    · rcases Nat.lt_or_ge a b with h | h
      · exact absurd h4 (h3 a h1 h)
      · exact h
  exact Nat.le_antisymm (key k1 h2 h3 k4) (key h1 k2 k3 h4)

end Html
