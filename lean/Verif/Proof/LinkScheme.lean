import Verif.Proof.LinkTotal
import Verif.Proof.Print
import Verif.Spec.LinkScheme

/-!
# Lemmas on kinds of references
-/

namespace Html
open Spec

theorem trimStart_white {w x : Str} {b : Nat} (hw : ∀ c ∈ w, c = 32 ∨ c = 9 ∨ c = 10 ∨ c = 12 ∨ c = 13)
    (hb : b < 128) (hs : isSpaceCP b = false) : trimStart (w ++ b :: x) = b :: x := by
  unfold trimStart
  rw [runLen_exact (fun c hc => ?_) hb hs, List.drop_left]
  rcases hw c hc with rfl | rfl | rfl | rfl | rfl <;> exact ⟨by decide, by decide⟩

theorem isWordCP_of {u : Uni} {a : Nat} (h : alnum a ∨ a = 95) : a < 128 ∧ isWordCP u a = true := by
  unfold alnum at h
  have : a < 128 := by omega
  refine ⟨this, ?_⟩
  unfold isWordCP isWordAscii
  rw [if_pos this]
  simp only [Bool.or_eq_true, Bool.and_eq_true, decide_eq_true_eq, beq_iff_eq]
  omega

theorem anyChar_word {u : Uni} (w : Str) (a : Nat) (x : Str) (h : alnum a ∨ a = 95) :
    anyChar (isWordCP u) (w ++ a :: x) = true := by
  have ha := isWordCP_of (u := u) h
  induction w with
  | nil =>
    have h1 : isCont a = false := by simp [isCont]; omega
    simp [anyChar, h1, codePoint, ha.1, ha.2]
  | cons b w ih =>
    rw [List.cons_append]
    unfold anyChar
    rw [ih]
    simp

theorem schemaChar_of {u : Uni} {a : Nat} (h : alnum a ∨ a = 95 ∨ a = 43 ∨ a = 46 ∨ a = 45) :
    a < 128 ∧ schemaChar u a = true := by
  unfold schemaChar
  rcases h with h | h | rfl | rfl | rfl
  · have := isWordCP_of (u := u) (.inl h); simp [this]
  · have := isWordCP_of (u := u) (.inr h); simp [this]
  all_goals simp

theorem SchemeName.ascii {s : Str} (h : SchemeName s) : ∀ b ∈ s, b < 128 ∧ isSpaceCP b = false ∧ b ≠ 58 ∧ b ≠ 10 ∧ b ≠ 13 := by
  obtain ⟨a, k, rfl, ha, hk⟩ := h
  have key : ∀ b, (alnum b ∨ b = 95 ∨ b = 43 ∨ b = 46 ∨ b = 45) → b < 128 ∧ isSpaceCP b = false ∧ b ≠ 58 ∧ b ≠ 10 ∧ b ≠ 13 := by
    intro b hb
    unfold alnum at hb
    refine ⟨by omega, ?_, by omega, by omega, by omega⟩
    unfold isSpaceCP
    simp only [Bool.or_eq_false_iff, Bool.and_eq_false_iff, decide_eq_false_iff_not, beq_eq_false_iff_ne]
    omega
  intro b hb
  rcases List.mem_cons.1 hb with rfl | hb
  · exact key _ (by rcases ha with h | h <;> simp [h])
  · exact key b (hk b hb)

theorem schemaOf_name {u : Uni} {s r : Str} (h : SchemeName s) : schemaOf u (s ++ 58 :: r) = some s := by
  obtain ⟨a, k, rfl, ha, hk⟩ := h
  have ha := isWordCP_of (u := u) ha
  unfold schemaOf
  dsimp only
  rw [firstRunLen_exact ha.1 ha.2 (fun b hb => schemaChar_of (hk b hb)) (by decide) (by simp [schemaChar, isWordCP, isWordAscii])]
  have e : k.length + 1 = (a :: k).length := rfl
  rw [e, List.drop_left, List.take_left]
  simp

theorem schemaOf_none {u : Uni} {s : Str} (h : 58 ∉ s) : schemaOf u s = none := by
  unfold schemaOf
  dsimp only
  rw [if_neg]
  rintro ⟨_, h2⟩
  have := List.mem_of_mem_head? h2
  exact h (List.mem_of_mem_drop this)

theorem toLower_name {u : Uni} {s : Str} (h : SchemeName s) : toLower u s = asciiLower s := by
  unfold toLower
  rw [if_pos (by rw [List.all_eq_true]; intro b hb; simpa using (SchemeName.ascii h b hb).1)]
  rfl

theorem ciPrefix_scheme {l : Str} : ∀ {s r : Str}, (∀ b ∈ s, b < 128 ∧ b ≠ 58) → 58 ∉ l →
    ciPrefix (l ++ [58]) (s ++ 58 :: r) = true → asciiLower s = l := by
  induction l with
  | nil =>
    intro s r hs _ h
    cases s with
    | nil => rfl
    | cons b s =>
      have hb := hs b (by simp)
      rw [List.nil_append, List.cons_append] at h
      unfold ciPrefix at h
      have : lowerByte b ≠ 58 := by unfold lowerByte; split <;> omega
      rw [if_neg this, if_neg (by simp)] at h
      cases h
  | cons a l ih =>
    intro s r hs hl h
    simp only [List.mem_cons, not_or] at hl
    cases s with
    | nil =>
      rw [List.cons_append, List.nil_append] at h
      unfold ciPrefix at h
      have : lowerByte 58 = 58 := by decide
      rw [this, if_neg hl.1, if_neg (by simp)] at h
      cases h
    | cons b s =>
      have hb := hs b (by simp)
      rw [List.cons_append, List.cons_append] at h
      unfold ciPrefix at h
      split at h
      · rename_i hc
        have := ih (fun c hc => hs c (by simp [hc])) hl.2 h
        unfold asciiLower at this ⊢
        rw [List.map_cons, this]
        exact congrArg (· :: l) hc
      · rw [if_neg (by rintro ⟨_, h2, _⟩; omega)] at h
        cases h

/-- A reference with an ordinary scheme behind blanks. -/
theorem workspaceUrl_scheme {e : LinkEnv} {w s rest : Str} {base : Option Str}
    (hw : ∀ c ∈ w, c = 32 ∨ c = 9 ∨ c = 12) (hs : SchemeName s)
    (hl : asciiLower s = b!"http" ∨ asciiLower s = b!"https" ∨ asciiLower s = b!"file")
    (hnl : 10 ∉ rest ∧ 13 ∉ rest) :
    workspaceUrl e (w ++ s ++ b!":" ++ rest) base = .ok (some (s ++ b!":" ++ rest)) := by
  have has := SchemeName.ascii hs
  have htrim : trimStart (w ++ s ++ b!":" ++ rest) = s ++ 58 :: rest := by
    obtain ⟨a, k, rfl, _, _⟩ := hs
    have := has a (by simp)
    have h1 := trimStart_white (w := w) (x := k ++ 58 :: rest) (fun c hc => by rcases hw c hc with h | h | h <;> simp [h]) this.1 this.2.1
    simpa using h1
  have hj : isJavascript (w ++ s ++ b!":" ++ rest) = false := by
    unfold isJavascript
    rw [htrim]
    have h1 : ciPrefix b!"javascript:" (s ++ 58 :: rest) = false := by
      rw [Bool.eq_false_iff]
      intro hh
      have := ciPrefix_scheme (l := b!"javascript") (fun b hb => ⟨(has b hb).1, (has b hb).2.2.1⟩) (by decide) hh
      rw [this] at hl
      revert hl
      decide
    rw [h1, Bool.false_or, Bool.eq_false_iff]
    intro hh
    obtain ⟨b, hb, hb2⟩ := List.any_eq_true.1 hh
    simp only [Bool.or_eq_true, beq_iff_eq] at hb2
    simp only [List.mem_append] at hb
    rcases hb with ((hb | hb) | hb) | hb
    · have := hw b hb; omega
    · have := has b hb; omega
    · simp at hb; omega
    · rcases hb2 with rfl | rfl
      · exact hnl.1 hb
      · exact hnl.2 hb
  unfold workspaceUrl
  rw [if_neg (by rw [hj]; simp)]
  dsimp only
  rw [htrim, schemaOf_name hs]
  dsimp only
  rw [toLower_name hs, if_pos hl]
  simp

/-- A relative reference behind blanks. -/
theorem workspaceUrl_relative {e : LinkEnv} {w x : Str} {a : Nat} {base : Option Str}
    (hw : ∀ c ∈ w, c = 32 ∨ c = 9 ∨ c = 12) (ha : a < 128) (hsp : isSpaceCP a = false) (hh : a ≠ 35)
    (hsl : ¬ (b!"//") <+: a :: x) (hcol : 58 ∉ a :: x) (hnl : 10 ∉ x ∧ 13 ∉ x) :
    workspaceUrl e (w ++ a :: x) base = e.resolve (a :: x) (base.getD e.uri) := by
  have htrim : trimStart (w ++ a :: x) = a :: x :=
    trimStart_white (fun c hc => by rcases hw c hc with h | h | h <;> simp [h]) ha hsp
  have hcp : ∀ l s : Str, 58 ∉ s → ciPrefix (l ++ [58]) s = false := by
    intro l
    induction l with
    | nil =>
      intro s hs
      cases s with
      | nil => rfl
      | cons b t =>
        simp only [List.mem_cons, not_or] at hs
        rw [List.nil_append]
        unfold ciPrefix
        rw [if_neg (by unfold lowerByte; split <;> omega), if_neg (by simp)]
    | cons c l ih =>
      intro s hs
      cases s with
      | nil => rfl
      | cons b t =>
        simp only [List.mem_cons, not_or] at hs
        rw [List.cons_append]
        unfold ciPrefix
        split
        · exact ih t hs.2
        · split
          · exact ih _ (fun h => hs.2 (List.mem_of_mem_tail h))
          · rfl
  have hj : isJavascript (w ++ a :: x) = false := by
    unfold isJavascript
    rw [htrim, show b!"javascript:" = b!"javascript" ++ [58] from rfl, hcp _ _ hcol, Bool.false_or, Bool.eq_false_iff]
    intro h
    obtain ⟨b, hb, hb2⟩ := List.any_eq_true.1 h
    simp only [Bool.or_eq_true, beq_iff_eq] at hb2
    simp only [List.mem_append, List.mem_cons] at hb
    rcases hb with hb | rfl | hb
    · have := hw b hb; omega
    · rcases hb2 with rfl | rfl <;> simp [isSpaceCP] at hsp
    · rcases hb2 with rfl | rfl
      · exact hnl.1 hb
      · exact hnl.2 hb
  unfold workspaceUrl
  rw [if_neg (by rw [hj]; simp)]
  dsimp only
  rw [htrim, schemaOf_none hcol]
  dsimp only
  rw [if_neg (by simp; omega), if_neg (by rw [List.isPrefixOf_iff_prefix]; exact hsl)]

theorem splitScheme_prefix {s p : Str} (h : (splitScheme s).1 = some p) : p ++ b!":" <+: s := by
  unfold splitScheme at h
  dsimp only at h
  split at h
  · rename_i hc
    injection h with h
    rw [Bool.and_eq_true, beq_iff_eq] at hc
    generalize (fun b : Nat => b != 58 && b != 47 && b != 63 && b != 35) = g at *
    have hs := List.takeWhile_append_dropWhile (p := g) (l := s)
    rw [h] at hs
    obtain ⟨t, ht⟩ : ∃ t, s.dropWhile g = 58 :: t := by
      cases hd : s.dropWhile g with
      | nil => rw [hd] at hc; simp at hc
      | cons b t => rw [hd] at hc; simp at hc; exact ⟨t, by rw [hc.2]⟩
    exact ⟨t, by rw [← hs, ht]; simp⟩
  · cases h

theorem splitUri_file {p q f : Str} (hp : ∀ b ∈ p, b ≠ 63 ∧ b ≠ 35)
    (hq : q = [] ∨ ∃ x, q = b!"?" ++ x ∧ 63 ∉ x ∧ 35 ∉ x) (hf : f = [] ∨ ∃ x, f = b!"#" ++ x ∧ 63 ∉ x) :
    (splitUri (b!"file://" ++ p ++ q ++ f)).scheme = some b!"file" ∧
    (splitUri (b!"file://" ++ p ++ q ++ f)).authority.getD [] ++ (splitUri (b!"file://" ++ p ++ q ++ f)).path = p ∧
    (splitUri (b!"file://" ++ p ++ q ++ f)).query.isSome = !q.isEmpty ∧
    (splitUri (b!"file://" ++ p ++ q ++ f)).fragment.isSome = !f.isEmpty := by
  have hr : q ++ f = [] ∨ ∃ c r, q ++ f = c :: r ∧ (c = 63 ∨ c = 35) := by
    rcases hq with rfl | ⟨x, rfl, _⟩
    · rcases hf with rfl | ⟨y, rfl, _⟩
      · exact .inl rfl
      · exact .inr ⟨_, _, rfl, .inr rfl⟩
    · exact .inr ⟨_, _, rfl, .inl rfl⟩
  have e : b!"file://" ++ p ++ q ++ f = b!"file" ++ 58 :: (47 :: 47 :: (p ++ (q ++ f))) := by simp
  have htw : ∀ (g : Nat → Bool) (r : Str), (r = [] ∨ ∃ c t, r = c :: t ∧ g c = false) → ∀ l : Str,
      (l ++ r).takeWhile g = l.takeWhile g ∧ (l ++ r).dropWhile g = l.dropWhile g ++ r := by
    intro g r hr l
    induction l with
    | nil =>
      rcases hr with rfl | ⟨c, t, rfl, hc⟩
      · simp
      · simp [hc]
    | cons b l ih =>
      rw [List.cons_append, List.takeWhile_cons, List.takeWhile_cons, List.dropWhile_cons, List.dropWhile_cons]
      split
      · exact ⟨by rw [ih.1], ih.2⟩
      · exact ⟨rfl, rfl⟩
  have h1 := htw (fun b => b != 47 && b != 63 && b != 35) (q ++ f)
    (by rcases hr with h | ⟨c, r, h, hc⟩
        · exact .inl h
        · exact .inr ⟨c, r, h, by rcases hc with rfl | rfl <;> rfl⟩) p
  generalize hd : p.dropWhile (fun b => b != 47 && b != 63 && b != 35) = d at h1
  have hdm : ∀ b ∈ d, b ≠ 63 ∧ b ≠ 35 := fun b hb => hp b (by rw [← hd] at hb; exact (List.dropWhile_sublist _).subset hb)
  have h2 := htw (fun b => b != 63 && b != 35) (q ++ f)
    (by rcases hr with h | ⟨c, r, h, hc⟩
        · exact .inl h
        · exact .inr ⟨c, r, h, by rcases hc with rfl | rfl <;> rfl⟩) d
  have h3 : d.takeWhile (fun b => b != 63 && b != 35) = d ∧ d.dropWhile (fun b => b != 63 && b != 35) = [] := by
    have hall : ∀ b ∈ d, (fun b : Nat => b != 63 && b != 35) b = true := by
      intro b hb; simp [hdm b hb]
    have := List.takeWhile_append_of_pos hall (l₂ := [])
    have h' := List.dropWhile_append_of_pos hall (l₂ := [])
    simp at this h' ⊢
    constructor
    · simpa using this
    · simpa using h'
  rw [h3.1, h3.2, List.nil_append] at h2
  have hsplit : splitUri (b!"file://" ++ p ++ q ++ f) =
      ⟨some b!"file", some (p.takeWhile (fun b => b != 47 && b != 63 && b != 35)), d,
        (splitQuery (q ++ f)).1, splitFragment (splitQuery (q ++ f)).2⟩ := by
    unfold splitUri
    dsimp only
    rw [e, splitScheme_build (by simp) (by decide)]
    have hau : ∀ r : Str, splitAuthority (47 :: 47 :: r) = (some (r.takeWhile (fun b => b != 47 && b != 63 && b != 35)),
      r.dropWhile (fun b => b != 47 && b != 63 && b != 35)) := fun _ => rfl
    dsimp only
    rw [hau]
    dsimp only
    rw [h1.1, h1.2, h2.1, h2.2]
  rw [hsplit]
  refine ⟨rfl, ?_, ?_, ?_⟩
  · rw [Option.getD_some]
    dsimp only
    rw [← hd, List.takeWhile_append_dropWhile]
  · rcases hq with rfl | ⟨x, rfl, _⟩
    · rcases hf with rfl | ⟨y, rfl, _⟩ <;> rfl
    · rfl
  · rcases hq with rfl | ⟨x, rfl, _, hx⟩
    · rcases hf with rfl | ⟨y, rfl, _⟩ <;> rfl
    · have : (splitQuery (b!"?" ++ x ++ f)).2 = f := by
        show (x ++ f).dropWhile (· != 35) = f
        rw [List.dropWhile_append_of_pos (fun b hb => by simp; intro h; subst h; exact hx hb)]
        rcases hf with rfl | ⟨y, rfl, _⟩ <;> rfl
      dsimp only
      rw [this]
      rcases hf with rfl | ⟨y, rfl, _⟩ <;> rfl

theorem lastQuestion_one {a x : Str} (hx : 63 ∉ x) : lastQuestion (a ++ 63 :: x) = some a.length := by
  unfold lastQuestion
  rw [if_pos (by simp)]
  have : ((a ++ 63 :: x).reverse.takeWhile (· != 63)).length = x.length := by
    rw [List.reverse_append, List.reverse_cons, List.append_assoc]
    rw [List.takeWhile_append_of_pos (fun b hb => by simp; intro h; subst h; exact hx (by simpa using hb))]
    simp
  rw [this]
  simp

theorem cleanUri_plain {l : UriLib} {url t uri : Str} (h : Plain url t) (h92 : 92 ∉ url) (hv : l.valid url = true)
    (hvt : l.valid t = true) (hlocal : ¬ (uri ++ b!"#") <+: url) : cleanUri l url uri = .ok (some t) := by
  have hcr : ∀ s, 92 ∉ s → l.valid s = true → l.create s = some s := by
    intro s h1 h2
    unfold UriLib.create
    rw [slashes_of_not_mem h1, if_pos h2]
  unfold cleanUri
  rw [hcr url h92 hv]
  dsimp only
  rcases h with ⟨rfl, hn⟩ | ⟨p, q, f, rfl, rfl, hp, hq, hf⟩
  · have hs : (splitUri t).scheme ≠ some b!"file" := fun hh => hn (splitScheme_prefix hh)
    have : dropQuery l t = .ok t := by
      unfold dropQuery
      rw [if_neg (fun h => hs h.1)]
    rw [this]
    simp only [bind, Except.bind]
    rw [if_neg (fun h => hs h.1), hcr t h92 hv]
    rfl
  · obtain ⟨s1, s2, s3, s4⟩ := splitUri_file hp hq hf
    have h92p : 92 ∉ b!"file://" ++ p := fun h => h92 (by simp at h ⊢; simp [h])
    obtain ⟨z1, _, z3, z4⟩ := splitUri_file (p := p) (q := []) (f := []) hp (.inl rfl) (.inl rfl)
    simp only [List.append_nil] at z1 z3 z4
    rcases hq with rfl | ⟨x, rfl, hx1, hx2⟩
    · have : dropQuery l (b!"file://" ++ p ++ [] ++ f) = .ok (b!"file://" ++ p ++ [] ++ f) := by
        unfold dropQuery
        rw [if_neg (fun h => by rw [s3] at h; simp at h)]
      rw [this]
      simp only [bind, Except.bind]
      by_cases hfe : f = []
      · subst hfe
        rw [if_neg (fun h => by rw [s4] at h; simp at h)]
        simp only [List.append_nil] at h92 hv ⊢
        rw [hcr _ h92 hv]
        rfl
      · have hnl : isLocal uri (b!"file://" ++ p ++ [] ++ f) ≠ true := by
          intro h
          apply hlocal
          unfold isLocal at h
          rw [Bool.and_eq_true, List.isPrefixOf_iff_prefix, beq_iff_eq] at h
          obtain ⟨⟨r, hr⟩, h2⟩ := h
          rw [← hr, List.drop_left] at h2
          cases r with
          | nil => cases h2
          | cons c r =>
            injection h2 with h2
            subst h2
            exact ⟨r, by rw [← hr]; simp⟩
        rw [if_pos ⟨s1, by rw [s4]; simpa using hfe, hnl⟩]
        have hp2 : l.parse (b!"file://" ++ p) = some (splitUri (b!"file://" ++ p)) := by
          unfold UriLib.parse
          rw [if_pos hvt]
        rw [List.append_assoc (b!"file://"), s2, hp2]
        rfl
    · have : dropQuery l (b!"file://" ++ p ++ (b!"?" ++ x) ++ f) = .ok (b!"file://" ++ p) := by
        have hlast : lastQuestion (b!"file://" ++ p ++ (b!"?" ++ x) ++ f) = some (b!"file://" ++ p).length := by
          rw [List.append_assoc, show b!"?" ++ x ++ f = 63 :: (x ++ f) from rfl]
          apply lastQuestion_one
          rw [List.mem_append, not_or]
          refine ⟨hx1, ?_⟩
          rcases hf with rfl | ⟨y, rfl, hy⟩
          · simp
          · simpa using hy
        unfold dropQuery
        rw [if_pos ⟨s1, by rw [s3]; rfl⟩, hlast]
        simp only [unwrap, bind, Except.bind]
        rw [List.append_assoc, List.take_left, hcr _ h92p hvt]
      rw [this]
      simp only [bind, Except.bind]
      rw [if_neg (fun h => by rw [z4] at h; simp at h), hcr _ h92p hvt]
      rfl

/-- Opening the plain address does not depend on the `id` attributes. -/
theorem Plain.prefix {url t : Str} (h : Plain url t) : t <+: url := by
  rcases h with ⟨rfl, _⟩ | ⟨p, q, f, rfl, rfl, _⟩
  · exact List.prefix_refl _
  · exact ⟨q ++ f, by simp⟩

end Html
