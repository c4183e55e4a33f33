import Verif.Proof.AttrSeq
import Verif.Proof.FoldElements
import Verif.Model.SelectionRange

/-! # The ranges of an attribute under the cursor -/

namespace Html
open Spec

/-- Every range contains the ones before it. -/
def Nested (l : List (Nat × Nat)) : Prop := l.Pairwise (fun a b => b.1 ≤ a.1 ∧ a.2 ≤ b.2)

theorem attrSelLoop_ok {c : Cfg} {rel : Nat} {fuel : Nat} {a r : AttrSel} {s : Sc} :
    attrSelLoop c rel fuel a s = .ok r ↔
      ∃ ts, tokensF c fuel s = .ok ts ∧ ts.foldlM (attrSelStep c.src rel) a = .ok r := by
  induction fuel generalizing a s with
  | zero => simp [attrSelLoop, tokensF]
  | succ n ih =>
    unfold attrSelLoop tokensF
    cases h1 : scan c s with
    | error e => simp [bind, Except.bind]
    | ok s1 =>
      simp only [bind, Except.bind]
      split
      · simp [pure, Except.pure]
      · constructor
        · intro h
          cases h2 : attrSelStep c.src rel a s1.tok with
          | error e => rw [h2] at h; cases h
          | ok f1 =>
            rw [h2] at h
            obtain ⟨ts, h3, h4⟩ := ih.1 h
            refine ⟨s1.tok :: ts, by rw [h3]; rfl, ?_⟩
            rw [List.foldlM_cons, h2]
            exact h4
        · rintro ⟨ts, h3, h4⟩
          cases h5 : tokensF c n s1 with
          | error e => rw [h5] at h3; cases h3
          | ok ts1 =>
            rw [h5] at h3; cases h3
            rw [List.foldlM_cons] at h4
            cases h2 : attrSelStep c.src rel a s1.tok with
            | error e => rw [h2] at h4; cases h4
            | ok f1 =>
              rw [h2] at h4
              exact ih.2 ⟨ts1, h5, h4⟩

/-- The results contain the cursor, grow, start behind the `<` and end before `B`. -/
structure GoodSel (Bd : Nat → Prop) (rel B : Nat) (l : List (Nat × Nat)) : Prop where
  nested : Nested l
  mem : ∀ r ∈ l, 1 ≤ r.1 ∧ r.1 ≤ rel ∧ rel ≤ r.2 ∧ r.2 ≤ B ∧ Bd r.1 ∧ Bd r.2

/-- The states of the loop. -/
inductive SelInv (Bd : Nat → Prop) (rel B lo : Nat) (nm : Bool) (a : AttrSel) : Prop
  | fresh (h : a.result = []) (h1 : nm = true → a.inside = true →
      1 ≤ a.attrStart ∧ Bd a.attrStart ∧ a.attrStart ≤ lo ∧ lo ≤ rel)
  | onName (h0 : nm = true) (ne : Nat) (h : a.result = [(a.attrStart, ne)])
      (h1 : 1 ≤ a.attrStart ∧ a.attrStart ≤ rel ∧ rel ≤ ne ∧ ne ≤ B ∧ Bd a.attrStart ∧ Bd ne)
      (hl : lo = ne + 1)
  | done (h : GoodSel Bd rel B a.result) (h1 : rel < lo) (h2 : nm = true → a.inside = false)

variable {Bd : Nat → Prop} {rel B lo : Nat} {nm : Bool} {a a' : AttrSel} {src : Str}

theorem SelInv.good (h : SelInv Bd rel B lo nm a) : GoodSel Bd rel B a.result := by
  cases h with
  | fresh h h1 => rw [h]; exact ⟨.nil, by simp⟩
  | onName h0 ne h h1 hl =>
    rw [h]
    refine ⟨by simp [Nested], ?_⟩
    simp
    exact ⟨h1.1, h1.2.1, h1.2.2.1, h1.2.2.2.1, h1.2.2.2.2.1, h1.2.2.2.2.2⟩
  | done h h1 h2 => exact h

/-- The ends of the attribute tokens, and of the quoted text, are where `Bd` says. -/
structure TokBd (Bd : Nat → Prop) (src : Str) (t : Tok) : Prop where
  ends : t.type = .AttributeName ∨ t.type = .AttributeValue → Bd t.offset ∧ Bd t.stop
  quoted : t.type = .AttributeValue → bothQuotes (bytesIn src t.offset t.stop) = true →
    t.offset + 1 ≤ t.stop - 1 → Bd (t.offset + 1) ∧ Bd (t.stop - 1)

theorem SelInv.name {t : Tok} (hi : SelInv Bd rel B lo nm a) (ht : t.type = .AttributeName)
    (h1 : 1 ≤ t.offset) (hB : t.stop ≤ B) (hb : TokBd Bd src t) (hlo : lo ≤ t.offset)
    (hlt : t.offset < t.stop) (hf : attrSelStep src rel a t = .ok a') :
    SelInv Bd rel B (t.stop + 1) true a' := by
  have hb' := hb.ends (.inl ht)
  unfold attrSelStep at hf
  rw [ht] at hf
  simp only at hf
  split at hf
  · rename_i hr
    cases hf
    exact .done hi.good (by omega) (fun _ => rfl)
  · rename_i hr
    cases hf
    cases hi with
    | fresh h h2 =>
      by_cases hrs : rel ≤ t.stop
      · refine .onName rfl t.stop ?_ ⟨h1, by show t.offset ≤ rel; omega, hrs, hB, hb'.1, hb'.2⟩ rfl
        simp [hrs, h]
      · refine .fresh ?_ (fun _ _ => ⟨h1, hb'.1, by show t.offset ≤ _; omega, by omega⟩)
        simp [hrs, h]
    | onName h0 ne h h2 hl => omega
    | done h h2 h3 => omega

theorem SelInv.value {t : Tok} (hi : SelInv Bd rel B lo nm a) (ht : t.type = .AttributeValue)
    (h1 : 1 ≤ t.offset) (hB : t.stop ≤ B) (hb : TokBd Bd src t) (hnm : nm = true) (hlo : lo ≤ t.offset)
    (hlt : t.offset < t.stop) (hf : attrSelStep src rel a t = .ok a') :
    SelInv Bd rel B (t.stop + 1) false a' := by
  have hb' := hb.ends (.inr ht)
  unfold attrSelStep at hf
  rw [ht] at hf
  simp only at hf
  split at hf
  · rename_i hin
    obtain ⟨text, htx, hf⟩ := bind_ok hf
    have hte := (sliceStr_ok htx).2.2.2.2
    cases hi with
    | done h h2 h3 => rw [h3 hnm] at hin; cases hin
    | onName h0 ne h h2 hl =>
      rw [if_pos (by omega)] at hf
      cases hf
      refine .done ⟨?_, ?_⟩ (by omega) (by simp)
      · rw [h]; simp [Nested]; omega
      · rw [h]; simp
        refine ⟨⟨h2.1, h2.2.1, h2.2.2.1, h2.2.2.2.1, h2.2.2.2.2.1, h2.2.2.2.2.2⟩, h2.1, h2.2.1, by omega, hB,
          h2.2.2.2.2.1, hb'.2⟩
    | fresh h h2 =>
      obtain ⟨h3, h4, h5, h6⟩ := h2 hnm hin
      split at hf
      · rename_i hr
        cases hf
        refine .done ⟨?_, ?_⟩ (by omega) (by simp)
        · rw [h]; simp [Nested]
        · rw [h]; simp
          exact ⟨h3, by omega, by omega, hB, h4, hb'.2⟩
      · rename_i hr
        split at hf
        · rename_i hr2
          cases hf
          refine .done ?_ (by omega) (by simp)
          have hall : 1 ≤ a.attrStart ∧ a.attrStart ≤ rel ∧ rel ≤ t.stop ∧ t.stop ≤ B ∧ Bd a.attrStart ∧ Bd t.stop :=
            ⟨h3, by omega, hr2, hB, h4, hb'.2⟩
          have hlv : a.attrStart ≤ t.offset := by omega
          split
          · rename_i hq
            rw [hte] at hq
            have hq' := hb.quoted ht hq.1 (by omega)
            rw [h]
            refine ⟨?_, ?_⟩
            · simp [Nested]; omega
            · simp
              exact ⟨⟨hq.2.1, hq.2.2, by omega, hq'.1, hq'.2⟩,
                ⟨h1, by omega, hr2, hB, hb'.1, hb'.2⟩, hall⟩
          · rw [h]
            refine ⟨?_, ?_⟩
            · simp [Nested]; omega
            · simp
              exact ⟨⟨h1, by omega, hr2, hB, hb'.1, hb'.2⟩, hall⟩
        · cases hf
          exact .fresh h (by simp)
  · rename_i hin
    cases hf
    cases hi with
    | done h h2 h3 => exact .done h (by omega) (by simp)
    | onName h0 ne h h2 hl => exact .done (SelInv.onName h0 ne h h2 hl).good (by omega) (by simp)
    | fresh h h2 => exact .fresh h (by simp)

theorem attrSelStep_other {t : Tok} (h1 : t.type ≠ .AttributeName) (h2 : t.type ≠ .AttributeValue) :
    attrSelStep src rel a t = .ok a := by
  unfold attrSelStep
  split
  · exact absurd (by assumption) h1
  · exact absurd (by assumption) h2
  · rfl

theorem SelInv.weaken (h : SelInv Bd rel B lo nm a) : SelInv Bd rel B lo false a := by
  cases h with
  | fresh h h1 => exact .fresh h (by simp)
  | onName h0 ne h h1 hl => exact .done (SelInv.onName (nm := true) (lo := lo) rfl ne h h1 hl).good (by omega) (by simp)
  | done h h1 h2 => exact .done h h1 (by simp)

theorem selInv_fold {ts ts2 : List Tok} (hs : AttrSeq lo nm (ts ++ ts2)) (hi : SelInv Bd rel B lo nm a)
    (ht : ∀ t ∈ ts, 1 ≤ t.offset ∧ t.stop ≤ B ∧ TokBd Bd src t)
    (hf : ts.foldlM (attrSelStep src rel) a = .ok a') :
    ∃ lo' nm', AttrSeq lo' nm' ts2 ∧ SelInv Bd rel B lo' nm' a' := by
  induction ts generalizing lo nm a with
  | nil => cases hf; exact ⟨lo, nm, hs, hi⟩
  | cons t ts ih =>
    rw [List.foldlM_cons] at hf
    obtain ⟨a1, h1, h2⟩ := bind_ok hf
    obtain ⟨t1, t2, t3⟩ := ht t (by simp)
    have ih := fun {lo nm} h1 h2 => @ih lo nm a1 h1 h2 (fun t h => ht t (by simp [h])) (by assumption)
    rw [List.cons_append] at hs
    unfold AttrSeq at hs
    split at hs
    · rename_i hty
      exact ih hs.2.2 (hi.name hty t1 t2 t3 hs.1 hs.2.1 h1)
    · rename_i hty
      split at hs
      · rename_i hty2
        exact ih hs.2.2.2 (hi.value hty2 t1 t2 t3 hs.1 hs.2.1 hs.2.2.1 h1)
      · rename_i hty2
        rw [attrSelStep_other hty hty2] at h1
        cases h1
        refine ih hs ?_
        cases hbr : isBracket t.type
        · simpa using hi
        · simpa using hi.weaken

/-- Behind the cursor nothing is added. -/
theorem selFold_behind {ts : List Tok} (hs : AttrSeq lo nm ts) (hn : nm = true → a.inside = false)
    (ht : ∀ t ∈ ts, rel < t.offset) (hf : ts.foldlM (attrSelStep src rel) a = .ok a') :
    a'.result = a.result := by
  induction ts generalizing lo nm a with
  | nil => cases hf; rfl
  | cons t ts ih =>
    rw [List.foldlM_cons] at hf
    obtain ⟨a1, h1, h2⟩ := bind_ok hf
    have t1 := ht t (by simp)
    unfold AttrSeq at hs
    split at hs
    · rename_i hty
      unfold attrSelStep at h1
      rw [hty] at h1
      simp only [t1, if_true] at h1
      cases h1
      exact ih (a := { a with inside := false }) hs.2.2 (fun _ => rfl) (fun t h => ht t (by simp [h])) h2
    · rename_i hty
      split at hs
      · rename_i hty2
        unfold attrSelStep at h1
        rw [hty2] at h1
        simp only [hn hs.1] at h1
        cases h1
        exact ih hs.2.2.2 (by simp) (fun t h => ht t (by simp [h])) h2
      · rename_i hty2
        rw [attrSelStep_other hty hty2] at h1
        cases h1
        refine ih hs (fun h => hn ?_) (fun t h => ht t (by simp [h])) h2
        revert h; cases nm <;> simp

/-- Without attribute names there are no ranges. -/
theorem selFold_nameless {ts : List Tok} (hn : a.inside = false)
    (ht : ∀ t ∈ ts, t.type ≠ .AttributeName) (hf : ts.foldlM (attrSelStep src rel) a = .ok a') : a' = a := by
  induction ts generalizing a with
  | nil => cases hf; rfl
  | cons t ts ih =>
    rw [List.foldlM_cons] at hf
    obtain ⟨a1, h1, h2⟩ := bind_ok hf
    have h3 : a1 = a := by
      by_cases hv : t.type = .AttributeValue
      · unfold attrSelStep at h1
        rw [hv] at h1
        simp [hn] at h1
        cases h1; rfl
      · rw [attrSelStep_other (ht t (by simp)) hv] at h1
        cases h1; rfl
    subst h3
    exact ih hn (fun t h => ht t (by simp [h])) h2

/-- Attributes that start behind the cursor add nothing. -/
theorem selFold_after {ts : List Tok} (hs : AttrSeq lo nm ts) (hn : nm = true → a.inside = false)
    (hl : rel < lo) (hf : ts.foldlM (attrSelStep src rel) a = .ok a') : a'.result = a.result := by
  induction ts generalizing lo nm a with
  | nil => cases hf; rfl
  | cons t ts ih =>
    rw [List.foldlM_cons] at hf
    obtain ⟨a1, h1, h2⟩ := bind_ok hf
    unfold AttrSeq at hs
    split at hs
    · rename_i hty
      unfold attrSelStep at h1
      rw [hty] at h1
      simp only at h1
      rw [if_pos (by omega)] at h1
      cases h1
      exact ih (a := { a with inside := false }) hs.2.2 (fun _ => rfl) (by omega) h2
    · rename_i hty
      split at hs
      · rename_i hty2
        unfold attrSelStep at h1
        rw [hty2] at h1
        simp only [hn hs.1] at h1
        cases h1
        exact ih hs.2.2.2 (by simp) (by omega) h2
      · rename_i hty2
        rw [attrSelStep_other hty hty2] at h1
        cases h1
        refine ih hs (fun h => hn ?_) hl h2
        revert h; cases nm <;> simp

theorem selFold_skip {ts : List Tok} (h : ∀ t ∈ ts, NotAttr t) (hf : ts.foldlM (attrSelStep src rel) a = .ok a') :
    a' = a := by
  induction ts with
  | nil => cases hf; rfl
  | cons t ts ih =>
    rw [List.foldlM_cons, attrSelStep_other (h t (by simp)).1 (h t (by simp)).2] at hf
    exact ih (fun t ht => h t (by simp [ht])) hf

theorem attrSeq_skip {ts ts2 : List Tok} (h : ∀ t ∈ ts, NotAttr t) (hs : AttrSeq lo nm (ts ++ ts2)) :
    ∃ nm', AttrSeq lo nm' ts2 := by
  induction ts generalizing nm with
  | nil => exact ⟨nm, hs⟩
  | cons t ts ih =>
    rw [List.cons_append] at hs
    unfold AttrSeq at hs
    rw [if_neg (h t (by simp)).1, if_neg (h t (by simp)).2] at hs
    exact ih (fun t ht => h t (by simp [ht])) hs

/-- Nor does anything behind the name before the next name or the end of the tag. -/
theorem selFold_next {mid ts : List Tok} {t : Tok} (hs : AttrSeq lo nm (mid ++ t :: ts))
    (hm : ∀ m ∈ mid, NotAttr m) (ht : t.type = .AttributeName ∨ isBracket t.type = true) (hl : rel < lo)
    (hf : (mid ++ t :: ts).foldlM (attrSelStep src rel) a = .ok a') : a'.result = a.result := by
  rw [List.foldlM_append] at hf
  obtain ⟨a1, h1, hf'⟩ := bind_ok hf
  have := selFold_skip hm h1
  subst this
  obtain ⟨nm', hs⟩ := attrSeq_skip hm hs
  rw [List.foldlM_cons] at hf'
  obtain ⟨a2, h2, h3⟩ := bind_ok hf'
  unfold AttrSeq at hs
  rcases ht with ht | ht
  · rw [if_pos ht] at hs
    unfold attrSelStep at h2
    rw [ht] at h2
    simp only at h2
    rw [if_pos (by omega)] at h2
    cases h2
    exact selFold_after (a := { a1 with inside := false }) hs.2.2 (fun _ => rfl) (by omega) h3
  · have hn : t.type ≠ .AttributeName ∧ t.type ≠ .AttributeValue := by
      constructor <;> (intro h; rw [h] at ht; cases ht)
    rw [if_neg hn.1, if_neg hn.2, ht] at hs
    rw [attrSelStep_other hn.1 hn.2] at h2
    cases h2
    exact selFold_after hs (by simp) hl h3

/-- With the cursor before a name the results end before it. -/
theorem selFold_before {pre ts : List Tok} {t : Tok} (hs : AttrSeq lo nm (pre ++ t :: ts))
    (hi : SelInv Bd rel t.offset lo nm a) (ht : t.type = .AttributeName) (hr : rel < t.offset)
    (hp : ∀ t' ∈ pre, 1 ≤ t'.offset ∧ t'.stop ≤ t.offset ∧ TokBd Bd src t')
    (hf : (pre ++ t :: ts).foldlM (attrSelStep src rel) a = .ok a') : GoodSel Bd rel t.offset a'.result := by
  rw [List.foldlM_append] at hf
  obtain ⟨a1, h1, hf⟩ := bind_ok hf
  obtain ⟨lo', nm', h2, h3⟩ := selInv_fold hs hi hp h1
  rw [List.foldlM_cons] at hf
  obtain ⟨a2, h4, h5⟩ := bind_ok hf
  unfold AttrSeq at h2
  rw [if_pos ht] at h2
  unfold attrSelStep at h4
  rw [ht] at h4
  simp only at h4
  rw [if_pos hr] at h4
  cases h4
  have := selFold_after (a := { a1 with inside := false }) h2.2.2 (fun _ => rfl) (by omega) h5
  rw [this]
  exact h3.good

/-- Up to the name of the attribute under the cursor there is no result. -/
theorem selFold_name {pre ts : List Tok} {t : Tok} {B : Nat} (hs : AttrSeq lo nm (pre ++ t :: ts))
    (hi : SelInv Bd rel B lo nm a) (ht : t.type = .AttributeName) (hr : t.offset ≤ rel)
    (hp : ∀ t' ∈ pre, 1 ≤ t'.offset ∧ t'.stop ≤ B ∧ TokBd Bd src t')
    (hf : (pre ++ t :: ts).foldlM (attrSelStep src rel) a = .ok a') :
    AttrSeq (t.stop + 1) true ts ∧ t.offset < t.stop ∧ ts.foldlM (attrSelStep src rel)
      ⟨if rel ≤ t.stop then [(t.offset, t.stop)] else [], true, t.offset⟩ = .ok a' := by
  rw [List.foldlM_append] at hf
  obtain ⟨a1, h1, hf⟩ := bind_ok hf
  obtain ⟨lo', nm', h2, h3⟩ := selInv_fold hs hi hp h1
  rw [List.foldlM_cons] at hf
  obtain ⟨a2, h4, h5⟩ := bind_ok hf
  unfold AttrSeq at h2
  rw [if_pos ht] at h2
  refine ⟨h2.2.2, h2.2.1, ?_⟩
  have hnil : a1.result = [] := by
    cases h3 with
    | fresh h _ => exact h
    | onName h0 ne h h1 hl => omega
    | done h h1 _ => omega
  unfold attrSelStep at h4
  rw [ht] at h4
  simp only at h4
  rw [if_neg (by omega), hnil] at h4
  cases h4
  exact h5

/-- The ranges behind the name of the attribute under the cursor, with a value. -/
theorem selFold_value {mid ts : List Tok} {t t2 : Tok} {r : List (Nat × Nat)}
    (hs : AttrSeq (t.stop + 1) true (mid ++ t2 :: ts)) (hm : ∀ m ∈ mid, NotAttr m)
    (ht : t2.type = .AttributeValue) (hr : rel ≤ t2.stop)
    (hf : (mid ++ t2 :: ts).foldlM (attrSelStep src rel) ⟨r, true, t.offset⟩ = .ok a') :
    t2.offset < t2.stop ∧ t.stop < t2.offset ∧ a'.result =
      (if rel < t2.offset then r
       else if bothQuotes (bytesIn src t2.offset t2.stop) = true ∧ t2.offset + 1 ≤ rel ∧ rel ≤ t2.stop - 1 then
         (t2.offset + 1, t2.stop - 1) :: (t2.offset, t2.stop) :: r
       else (t2.offset, t2.stop) :: r) ++ [(t.offset, t2.stop)] := by
  rw [List.foldlM_append] at hf
  obtain ⟨a1, h1, hf⟩ := bind_ok hf
  have := selFold_skip hm h1
  subst this
  obtain ⟨nm', hs⟩ := attrSeq_skip hm hs
  rw [List.foldlM_cons] at hf
  obtain ⟨a2, h2, h3⟩ := bind_ok hf
  unfold AttrSeq at hs
  rw [ht] at hs
  simp only [reduceCtorEq, if_false, if_true] at hs
  refine ⟨by omega, by omega, ?_⟩
  have h4 := selFold_after hs.2.2.2 (by simp) (by omega) h3
  rw [h4]
  unfold attrSelStep at h2
  rw [ht] at h2
  simp only [if_true] at h2
  obtain ⟨x, hx, h2⟩ := bind_ok h2
  have hx := (sliceStr_ok hx).2.2.2.2
  subst hx
  simp only [hr, if_true] at h2
  split at h2
  · rename_i h5
    cases h2
    rw [if_pos h5]
  · rename_i h5
    rw [if_neg h5]
    cases h2
    rfl

end Html
