import Verif.Model.Uri
import Verif.Spec.Uri
import Verif.Proof.Prim

/-!
# Lemmas about splitting URIs and paths
-/

namespace Html

open Spec

/-! ### Segments -/

theorem splitSlash_ne_nil (s : Str) : splitSlash s ≠ [] := by
  cases s with
  | nil => simp [splitSlash]
  | cons b t =>
    unfold splitSlash
    split
    · simp
    · split <;> simp

theorem splitSlash_of_not_mem {s : Str} (h : 47 ∉ s) : splitSlash s = [s] := by
  induction s with
  | nil => rfl
  | cons b t ih =>
    simp only [List.mem_cons, not_or] at h
    unfold splitSlash
    rw [if_neg (fun e => h.1 e.symm), ih h.2]

theorem splitSlash_append_slash (s t : Str) : splitSlash (s ++ 47 :: t) = splitSlash s ++ splitSlash t := by
  induction s with
  | nil => simp [splitSlash]
  | cons b s ih =>
    have e : ∀ r, splitSlash (b :: r) = if b = 47 then [] :: splitSlash r else
        match splitSlash r with
        | [] => [[b]]
        | x :: l => (b :: x) :: l := fun r => rfl
    rw [List.cons_append, e, e]
    by_cases hb : b = 47
    · rw [if_pos hb, if_pos hb, ih]; rfl
    · rw [if_neg hb, if_neg hb, ih]
      cases hs : splitSlash s with
      | nil => exact absurd hs (splitSlash_ne_nil s)
      | cons x l => rfl

theorem splitSlash_append_head {a : Str} (ha : 47 ∉ a) (s : Str) :
    splitSlash (a ++ s) = (a ++ (splitSlash s).headD []) :: (splitSlash s).tail := by
  induction a with
  | nil =>
    cases hs : splitSlash s with
    | nil => exact absurd hs (splitSlash_ne_nil s)
    | cons x l => simp [hs]
  | cons b a ih =>
    simp only [List.mem_cons, not_or] at ha
    rw [List.cons_append]
    conv => lhs; unfold splitSlash
    rw [if_neg (fun e => ha.1 e.symm), ih ha.2]
    rfl

theorem splitSlash_mem {s x : Str} (h : x ∈ splitSlash s) : 47 ∉ x ∧ ∀ b ∈ x, b ∈ s := by
  induction s generalizing x with
  | nil => simp [splitSlash] at h; subst h; simp
  | cons b t ih =>
    unfold splitSlash at h
    split at h
    · rw [List.mem_cons] at h
      rcases h with rfl | h
      · simp
      · obtain ⟨h1, h2⟩ := ih h
        exact ⟨h1, fun c hc => List.mem_cons_of_mem _ (h2 c hc)⟩
    · rename_i hb
      cases hs : splitSlash t with
      | nil => exact absurd hs (splitSlash_ne_nil t)
      | cons y l =>
        rw [hs] at h
        simp only [List.mem_cons] at h
        rcases h with rfl | h
        · obtain ⟨h1, h2⟩ := ih (x := y) (by rw [hs]; simp)
          constructor
          · simp only [List.mem_cons, not_or]; exact ⟨fun e => hb e.symm, h1⟩
          · intro c hc
            rw [List.mem_cons] at hc
            rcases hc with rfl | hc
            · simp
            · exact List.mem_cons_of_mem _ (h2 c hc)
        · obtain ⟨h1, h2⟩ := ih (x := x) (by rw [hs]; simp [h])
          exact ⟨h1, fun c hc => List.mem_cons_of_mem _ (h2 c hc)⟩

/-! ### Splitting -/

theorem takeWhile_all {p : Nat → Bool} {s : Str} : ∀ b ∈ s.takeWhile p, p b = true := by
  intro b hb
  have := List.all_takeWhile (l := s) (p := p)
  exact List.all_eq_true.1 this b hb

theorem splitScheme_some {s p : Str} (h : (splitScheme s).1 = some p) :
    p ≠ [] ∧ ∀ b ∈ p, b ≠ 58 ∧ b ≠ 47 ∧ b ≠ 63 ∧ b ≠ 35 := by
  unfold splitScheme at h
  dsimp only at h
  split at h
  · rename_i hc
    injection h with h
    subst h
    simp at hc
    refine ⟨hc.1, fun b hb => ?_⟩
    · have := takeWhile_all b hb
      simpa [and_assoc] using this
  · cases h

theorem splitScheme_build {p r : Str} (h1 : p ≠ []) (h2 : ∀ b ∈ p, b ≠ 58 ∧ b ≠ 47 ∧ b ≠ 63 ∧ b ≠ 35) :
    splitScheme (p ++ 58 :: r) = (some p, r) := by
  have hp : ∀ b ∈ p, (fun b : Nat => b != 58 && b != 47 && b != 63 && b != 35) b = true := by
    intro b hb
    have := h2 b hb
    simp [this]
  unfold splitScheme
  dsimp only
  rw [List.takeWhile_append_of_pos hp, List.dropWhile_append_of_pos hp]
  have : p.isEmpty = false := by simpa using h1
  simp [h1]

theorem splitAuthority_mem {s a : Str} (h : (splitAuthority s).1 = some a) :
    ∀ b ∈ a, b ≠ 47 ∧ b ≠ 63 ∧ b ≠ 35 := by
  unfold splitAuthority at h
  split at h
  · injection h with h
    subst h
    intro b hb
    have := takeWhile_all b hb
    simpa [and_assoc] using this
  · cases h

/-- A URI with scheme and authority and neither query nor fragment. -/
theorem splitUri_build {p x : Str} (h1 : p ≠ []) (h2 : ∀ b ∈ p, b ≠ 58 ∧ b ≠ 47 ∧ b ≠ 63 ∧ b ≠ 35)
    (hx : ∀ b ∈ x, b ≠ 63 ∧ b ≠ 35) :
    splitUri (p ++ b!"://" ++ x) =
      ⟨some p, some (x.takeWhile (· != 47)), x.dropWhile (· != 47), none, none⟩ := by
  have e : p ++ b!"://" ++ x = p ++ 58 :: (47 :: 47 :: x) := by simp
  have h47 : ∀ (l : Str), (∀ b ∈ l, b ≠ 63 ∧ b ≠ 35) →
      l.takeWhile (fun b => b != 47 && b != 63 && b != 35) = l.takeWhile (· != 47) ∧
      l.dropWhile (fun b => b != 47 && b != 63 && b != 35) = l.dropWhile (· != 47) ∧
      l.takeWhile (fun b => b != 63 && b != 35) = l ∧ l.dropWhile (fun b => b != 63 && b != 35) = [] := by
    intro l hl
    induction l with
    | nil => simp
    | cons b t ih =>
      have hb := hl b (by simp)
      obtain ⟨i1, i2, i3, i4⟩ := ih (fun c hc => hl c (List.mem_cons_of_mem _ hc))
      by_cases h : b = 47
      · subst h; simp [i3, i4]
      · simp [h, hb, i1, i2, i3, i4]
  obtain ⟨a1, a2, -, -⟩ := h47 x hx
  obtain ⟨-, -, a3, a4⟩ := h47 (x.dropWhile (· != 47))
    (fun b hb => hx b ((List.dropWhile_suffix _).subset hb))
  unfold splitUri
  rw [e, splitScheme_build h1 h2]
  simp only [splitAuthority, a1, a2, a3, a4, splitQuery, splitFragment]

theorem splitUri_path {s : Str} : ∀ b ∈ (splitUri s).path, b ≠ 63 ∧ b ≠ 35 := by
  intro b hb
  have := takeWhile_all b hb
  simpa using this

/-! ### Components -/

/-- A component that comes from a path: a normal one is a segment. -/
def Comp.Ok (q : Nat → Prop) : Comp → Prop
  | .normal s => s ≠ [] ∧ 47 ∉ s ∧ ¬ DotSegment s ∧ ∀ b ∈ s, q b
  | _ => True

theorem segComp_ok {q : Nat → Prop} {s : Str} {c : Comp} (h47 : 47 ∉ s) (hq : ∀ b ∈ s, q b)
    (h : segComp s = some c) : c.Ok q := by
  unfold segComp at h
  split at h
  · cases h
  · split at h
    · injection h with h; subst h; trivial
    · rename_i h1 h2
      injection h with h
      subst h
      simp only [not_or] at h1
      obtain ⟨h1, h3⟩ := h1
      exact ⟨h1, h47, by rintro (h | h) <;> contradiction, hq⟩

theorem components_ok {q : Nat → Prop} {p : Str} (hq : ∀ b ∈ p, q b) : ∀ c ∈ components p, c.Ok q := by
  have key : ∀ (t : Str) (l : List Str), (∀ b ∈ t, q b) → (∀ s ∈ l, s ∈ splitSlash t) →
      ∀ c ∈ l.filterMap segComp, c.Ok q := by
    intro t l ht hl c hc
    obtain ⟨s, hs, hc⟩ := List.mem_filterMap.1 hc
    obtain ⟨h1, h2⟩ := splitSlash_mem (hl s hs)
    exact segComp_ok h1 (fun b hb => ht b (h2 b hb)) hc
  intro c hc
  unfold components at hc
  split at hc
  · rw [List.mem_cons] at hc
    rcases hc with rfl | hc
    · trivial
    · exact key p.tail _ (fun b hb => hq b (List.mem_of_mem_tail hb)) (fun s hs => hs) c hc
  · split at hc
    · rw [List.mem_cons] at hc
      rcases hc with rfl | hc
      · trivial
      · exact key p _ hq (fun s hs => List.mem_of_mem_tail hs) c hc
    · exact key p _ hq (fun s hs => hs) c hc

theorem popPath_sub {l : List Comp} : ∀ c ∈ popPath l, c ∈ l := by
  intro c hc
  unfold popPath at hc
  split at hc
  · exact hc
  · exact List.dropLast_subset _ hc

theorem baseDir_ok {q : Nat → Prop} {base p : Str} (hq : ∀ b ∈ p, q b) : ∀ c ∈ baseDir base p, c.Ok q := by
  intro c hc
  unfold baseDir at hc
  split at hc
  · exact components_ok hq c hc
  · exact components_ok hq c (popPath_sub c hc)

theorem joinPath_ok {q : Nat → Prop} {dir : List Comp} {p : Str} (hd : ∀ c ∈ dir, c.Ok q)
    (hq : ∀ b ∈ p, q b) : ∀ c ∈ joinPath dir p, c.Ok q := by
  intro c hc
  unfold joinPath at hc
  split at hc
  · exact components_ok hq c hc
  · rw [List.mem_append] at hc
    rcases hc with hc | hc
    · exact hd c hc
    · exact components_ok hq c (List.mem_filter.1 hc).1

/-- Neither `.` nor `..`. -/
def Comp.Clean (q : Nat → Prop) (c : Comp) : Prop := c.Ok q ∧ c ≠ .cur ∧ c ≠ .parent

theorem basePrefix_clean {q : Nat → Prop} {dir : List Comp} {v : Str} (hd : ∀ c ∈ dir, c.Ok q)
    (h : basePrefix dir = some v) : (Comp.normal v).Clean q := by
  unfold basePrefix at h
  split at h
  · split at h
    · injection h with h
      subst h
      exact ⟨hd _ (by simp), by simp, by simp⟩
    · cases h
  · cases h

theorem firstComp_mem {pre : Option Str} {path : List Comp} {c : Comp} (h : c ∈ firstComp pre path) :
    c = .root ∨ (∃ v, pre = some v ∧ c = .normal v) ∨ ∃ v, c = .normal v ∧ c ∈ path := by
  cases path with
  | nil => simp [firstComp] at h
  | cons x rest =>
    cases x with
    | cur => simp [firstComp] at h
    | parent => simp [firstComp] at h
    | root =>
      unfold firstComp at h
      dsimp only at h
      cases pre with
      | none => simp at h; exact .inl h
      | some p =>
        dsimp only at h
        split at h
        case isFalse => simp at h; exact .inl h
        case isTrue =>
          simp at h
          rcases h with h | h
          · exact .inl h
          · exact .inr (.inl ⟨p, rfl, h⟩)
    | normal v =>
      unfold firstComp at h
      cases pre with
      | none =>
        simp at h
        rcases h with h | h
        · exact .inl h
        · exact .inr (.inr ⟨v, h, by simp [h]⟩)
      | some p =>
        simp at h
        rcases h with h | h | h
        · exact .inl h
        · exact .inr (.inl ⟨p, rfl, h⟩)
        · exact .inr (.inr ⟨v, h, by simp [h]⟩)

theorem newPath_clean {q : Nat → Prop} {dir path : List Comp} (hd : ∀ c ∈ dir, c.Ok q)
    (hp : ∀ c ∈ path, c.Ok q) : ∀ c ∈ newPath dir path, c.Clean q := by
  have hroot : (Comp.root).Clean q := ⟨trivial, by simp, by simp⟩
  have h1 : ∀ c ∈ firstComp (basePrefix dir) path, c.Clean q := by
    intro c hc
    rcases firstComp_mem hc with rfl | ⟨v, hv, rfl⟩ | ⟨v, rfl, hv⟩
    · exact hroot
    · exact basePrefix_clean hd hv
    · exact ⟨hp _ hv, by simp, by simp⟩
  unfold newPath
  have hp' : ∀ c ∈ path.tail, c.Ok q := fun c hc => hp c (List.mem_of_mem_tail hc)
  generalize path.tail = l at hp'
  generalize firstComp (basePrefix dir) path = acc at h1
  induction l generalizing acc with
  | nil => exact h1
  | cons c l ih =>
    rw [List.foldl_cons]
    refine ih (fun x hx => hp' x (List.mem_cons_of_mem _ hx)) _ ?_
    intro x hx
    have hc := hp' c (by simp)
    cases c with
    | root =>
      simp only [nextComp, List.mem_append, List.mem_singleton] at hx
      rcases hx with hx | rfl
      · exact h1 x hx
      · exact hroot
    | cur => exact h1 x hx
    | parent => exact h1 x (List.dropLast_subset _ hx)
    | normal v =>
      simp only [nextComp, List.mem_append, List.mem_singleton] at hx
      rcases hx with hx | rfl
      · exact h1 x hx
      · exact ⟨hc, by simp, by simp⟩

/-- The text of a path without dot segments: neither are there any behind the first slash. -/
def GoodText (q : Nat → Prop) (s : Str) : Prop :=
  (∀ x ∈ (splitSlash s).tail, ¬ DotSegment x) ∧ ∀ b ∈ s, b = 47 ∨ q b

theorem endsSlash {s : Str} (h : s.getLast? = some 47) : ∃ s0, s = s0 ++ [47] := by
  obtain ⟨l, hl⟩ := List.getLast?_eq_some_iff.1 h
  exact ⟨l, hl⟩

theorem pushComp_good {q : Nat → Prop} {s : Str} {c : Comp} (hs : GoodText q s) (hc : c.Clean q) :
    GoodText q (pushComp s c) := by
  cases c with
  | root =>
    refine ⟨?_, ?_⟩
    · intro x hx; simp [pushComp, splitSlash] at hx; subst hx; simp [DotSegment]
    · intro b hb; simp [pushComp] at hb; exact .inl hb
  | cur => exact absurd rfl hc.2.1
  | parent => exact absurd rfl hc.2.2
  | normal v =>
    obtain ⟨⟨_, h47, hdot, hq⟩, -, -⟩ := hc
    unfold pushComp
    dsimp only
    have hbytes : ∀ b ∈ s ++ v, b = 47 ∨ q b := by
      intro b hb
      rw [List.mem_append] at hb
      exact hb.elim (hs.2 b) (fun h => .inr (hq b h))
    split
    · rename_i h
      refine ⟨?_, hbytes⟩
      simp only [Bool.or_eq_true, List.isEmpty_iff, decide_eq_true_eq] at h
      rcases h with h | h
      · subst h; rw [List.nil_append, splitSlash_of_not_mem h47]; simp
      · obtain ⟨s0, rfl⟩ := endsSlash h
        have e : s0 ++ [47] ++ v = s0 ++ 47 :: v := by simp
        have e0 : s0 ++ [47] = s0 ++ 47 :: [] := rfl
        have hs1 := hs.1
        rw [e0, splitSlash_append_slash, List.tail_append_of_ne_nil (splitSlash_ne_nil _)] at hs1
        rw [e, splitSlash_append_slash, splitSlash_of_not_mem h47,
          List.tail_append_of_ne_nil (splitSlash_ne_nil _)]
        intro x hx
        rw [List.mem_append] at hx
        rcases hx with hx | hx
        · exact hs1 x (List.mem_append.2 (.inl hx))
        · simp at hx; subst hx; exact hdot
    · refine ⟨?_, ?_⟩
      · rw [splitSlash_append_slash, splitSlash_of_not_mem h47,
          List.tail_append_of_ne_nil (splitSlash_ne_nil _)]
        intro x hx
        rw [List.mem_append] at hx
        rcases hx with hx | hx
        · exact hs.1 x hx
        · simp at hx; subst hx; exact hdot
      · intro b hb
        simp only [List.mem_append, List.mem_cons] at hb
        rcases hb with hb | hb | hb
        · exact hs.2 b hb
        · exact .inl hb
        · exact .inr (hq b hb)

theorem pathText_good {q : Nat → Prop} {l : List Comp} (hl : ∀ c ∈ l, c.Clean q) : GoodText q (pathText l) := by
  have key : ∀ (l : List Comp) (s : Str), (∀ c ∈ l, c.Clean q) → GoodText q s → GoodText q (l.foldl pushComp s) := by
    intro l
    induction l with
    | nil => intro s _ hs; exact hs
    | cons c l ih =>
      intro s hl hs
      exact ih _ (fun x hx => hl x (List.mem_cons_of_mem _ hx)) (pushComp_good hs (hl c (by simp)))
  exact key l [] hl ⟨by simp [splitSlash], by simp⟩

/-! ### Results of the resolution -/

/-- The authority of the result. -/
def resolvedAuthority (reference base : Str) : Str :=
  match (splitUri reference).authority with
  | some a => a
  | none => (splitUri base).authority.getD []

/-- The path of the result. -/
def resolvedPath (reference base : Str) : List Comp :=
  newPath (baseDir base (splitUri base).path)
    (joinPath (baseDir base (splitUri base).path) (splitUri reference).path)

theorem resolve_relative {l : UriLib} {reference base scheme : Str} (hr : l.valid reference = true)
    (hb : l.valid base = true) (hn : (splitUri reference).scheme = none)
    (hs : (splitUri base).scheme = some scheme) :
    l.resolveReference reference base = .ok (some (scheme ++ b!"://" ++ (resolvedAuthority reference base ++
      (pathText (resolvedPath reference base) ++ refSuffix reference)))) := by
  unfold UriLib.resolveReference UriLib.parse
  rw [if_pos hr, if_pos hb]
  simp only [unwrap, hn, hs, bind, Except.bind, List.append_assoc]
  simp [resolvedAuthority, resolvedPath]
  rfl

theorem resolve_relative_inv {l : UriLib} {reference base r : Str}
    (hn : (splitUri reference).scheme = none) (h : l.resolveReference reference base = .ok (some r)) :
    ∃ scheme, l.valid reference = true ∧ l.valid base = true ∧ (splitUri base).scheme = some scheme := by
  unfold UriLib.resolveReference UriLib.parse at h
  by_cases hr : l.valid reference = true
  · rw [if_pos hr] at h
    by_cases hb : l.valid base = true
    · rw [if_pos hb] at h
      simp only [unwrap, hn, bind, Except.bind] at h
      cases hs : (splitUri base).scheme with
      | none => rw [hs] at h; simp at h
      | some scheme => exact ⟨scheme, hr, hb, rfl⟩
    · rw [if_neg hb] at h
      simp [unwrap, bind, Except.bind] at h
  · rw [if_neg hr] at h
    simp at h

theorem resolvedAuthority_mem (reference base : Str) :
    ∀ b ∈ resolvedAuthority reference base, b ≠ 47 ∧ b ≠ 63 ∧ b ≠ 35 := by
  unfold resolvedAuthority
  have h1 : ∀ s a, (splitUri s).authority = some a → ∀ b ∈ a, b ≠ 47 ∧ b ≠ 63 ∧ b ≠ 35 :=
    fun s a h => splitAuthority_mem h
  split
  · rename_i a ha; exact h1 _ _ ha
  · cases hb : (splitUri base).authority with
    | none => simp
    | some a => exact h1 _ _ hb

theorem resolvedPath_clean (reference base : Str) :
    ∀ c ∈ resolvedPath reference base, c.Clean (fun b => b ≠ 63 ∧ b ≠ 35) := by
  have hd := baseDir_ok (base := base) (splitUri_path (s := base))
  exact newPath_clean hd (joinPath_ok hd splitUri_path)

theorem refSuffix_cases (reference : Str) : refSuffix reference = [] ∨ refSuffix reference = b!"/" := by
  unfold refSuffix
  split
  · exact .inr rfl
  · exact .inl rfl

/-- Everything behind `scheme://`. -/
theorem resolved_rest (reference base : Str) :
    (∀ b ∈ resolvedAuthority reference base ++ (pathText (resolvedPath reference base) ++ refSuffix reference),
      b ≠ 63 ∧ b ≠ 35) ∧
    ∀ x ∈ (splitSlash (resolvedAuthority reference base ++
      (pathText (resolvedPath reference base) ++ refSuffix reference))).tail, ¬ DotSegment x := by
  obtain ⟨g1, g2⟩ := pathText_good (resolvedPath_clean reference base)
  have hb : ∀ b : Nat, b = 47 ∨ (b ≠ 63 ∧ b ≠ 35) → b ≠ 63 ∧ b ≠ 35 := by
    rintro b (rfl | h)
    · simp
    · exact h
  constructor
  · intro b hb'
    simp only [List.mem_append] at hb'
    rcases hb' with h | h | h
    · exact (resolvedAuthority_mem _ _ b h).2
    · exact hb b (g2 b h)
    · rcases refSuffix_cases reference with e | e
      · rw [e] at h; cases h
      · rw [e] at h; simp at h; subst h; simp
  · have ha : 47 ∉ resolvedAuthority reference base := fun h => (resolvedAuthority_mem _ _ _ h).1 rfl
    rw [splitSlash_append_head ha]
    intro x hx
    simp only [List.tail_cons] at hx
    rcases refSuffix_cases reference with e | e
    · rw [e, List.append_nil] at hx; exact g1 x hx
    · rw [e] at hx
      have e2 : pathText (resolvedPath reference base) ++ (b!"/") =
        pathText (resolvedPath reference base) ++ 47 :: [] := rfl
      rw [e2, splitSlash_append_slash, List.tail_append_of_ne_nil (splitSlash_ne_nil _), List.mem_append] at hx
      rcases hx with hx | hx
      · exact g1 x hx
      · simp [splitSlash] at hx; subst hx; simp [DotSegment]

theorem splitSlash_dropWhile (x : Str) :
    splitSlash (x.dropWhile (· != 47)) = [] :: (splitSlash x).tail := by
  induction x with
  | nil => rfl
  | cons b t ih =>
    by_cases hb : b = 47
    · subst hb
      rw [List.dropWhile_cons_of_neg (by simp)]
      simp [splitSlash]
    · rw [List.dropWhile_cons_of_pos (by simpa using hb), ih]
      conv => rhs; unfold splitSlash
      rw [if_neg hb]
      cases hs : splitSlash t with
      | nil => exact absurd hs (splitSlash_ne_nil t)
      | cons y l => rfl

/-! ### The walk -/

/-- The directory as a list of components. -/
def dirComps (dir : List Str) : List Comp := .root :: dir.map .normal

theorem foldl_walk {segs dir out : List Str} (h : walk dir segs = some out) :
    (segs.filterMap segComp).foldl nextComp (dirComps dir) = dirComps out := by
  induction segs generalizing dir with
  | nil => simp [walk] at h; subst h; rfl
  | cons s rest ih =>
    unfold walk at h
    split at h
    · rename_i hs
      rw [List.filterMap_cons_none (by simp only [segComp, if_pos hs])]
      exact ih h
    · rename_i hs
      split at h
      · rename_i hd
        split at h
        · cases h
        · rename_i hne
          rw [List.filterMap_cons_some (b := Comp.parent) (by simp only [segComp, if_neg hs, if_pos hd]), List.foldl_cons]
          have : nextComp (dirComps dir) .parent = dirComps dir.dropLast := by
            show (Comp.root :: dir.map Comp.normal).dropLast = Comp.root :: dir.dropLast.map Comp.normal
            rw [List.dropLast_cons_of_ne_nil (by simpa using hne), List.map_dropLast]
          rw [this]
          exact ih h
      · rename_i hd
        rw [List.filterMap_cons_some (b := Comp.normal s) (by simp only [segComp, if_neg hs, if_neg hd]), List.foldl_cons]
        have : nextComp (dirComps dir) (.normal s) = dirComps (dir ++ [s]) := by
          simp [nextComp, dirComps]
        rw [this]
        exact ih h

theorem walk_segments {segs dir out : List Str} (h : walk dir segs = some out)
    (hd : ∀ s ∈ dir, s ≠ [] ∧ 47 ∉ s) (hs : ∀ s ∈ segs, 47 ∉ s) : ∀ s ∈ out, s ≠ [] ∧ 47 ∉ s := by
  induction segs generalizing dir with
  | nil => simp [walk] at h; subst h; exact hd
  | cons s rest ih =>
    have hs' : ∀ x ∈ rest, 47 ∉ x := fun x hx => hs x (List.mem_cons_of_mem _ hx)
    unfold walk at h
    split at h
    · exact ih h hd hs'
    · rename_i hne
      split at h
      · split at h
        · cases h
        · exact ih h (fun x hx => hd x (List.dropLast_subset _ hx)) hs'
      · refine ih h ?_ hs'
        intro x hx
        simp only [List.mem_append, List.mem_singleton] at hx
        rcases hx with hx | rfl
        · exact hd x hx
        · simp only [not_or] at hne
          exact ⟨hne.1, hs _ (by simp)⟩

theorem pathText_dir {dir : List Str} (hd : ∀ s ∈ dir, s ≠ [] ∧ 47 ∉ s) :
    pathText (dirComps dir) = pathOf dir := by
  have key : ∀ (dir : List Str) (t : Str), (∀ s ∈ dir, s ≠ [] ∧ 47 ∉ s) → t ≠ [] → t.getLast? ≠ some 47 →
      (dir.map Comp.normal).foldl pushComp t = t ++ (dir.map (fun s => 47 :: s)).flatten := by
    intro dir
    induction dir with
    | nil => intro t _ _ _; simp
    | cons s dir ih =>
      intro t hd ht hl
      have hs := hd s (by simp)
      rw [List.map_cons, List.foldl_cons]
      have e : pushComp t (.normal s) = t ++ 47 :: s := by
        unfold pushComp
        dsimp only
        rw [if_neg (by simp [ht, hl])]
      rw [e, ih _ (fun x hx => hd x (List.mem_cons_of_mem _ hx)) (by simp)]
      · simp
      · intro h
        obtain ⟨s0, hs0⟩ := endsSlash h
        rw [List.getLast?_append] at h
        simp only [List.getLast?_cons] at h
        cases hg : s.getLast? with
        | none => exact hs.1 (List.getLast?_eq_none_iff.1 hg)
        | some x =>
          rw [hg] at h
          simp at h
          subst h
          exact hs.2 (List.mem_of_getLast? hg)
  unfold pathText dirComps pathOf
  rw [List.foldl_cons]
  cases dir with
  | nil => rfl
  | cons s dir =>
    have hs := hd s (by simp)
    rw [List.map_cons, List.foldl_cons, if_neg (by simp)]
    have e : pushComp (pushComp [] .root) (.normal s) = 47 :: s := by simp [pushComp]
    rw [e, key dir _ (fun x hx => hd x (List.mem_cons_of_mem _ hx)) (by simp)]
    · simp
    · intro h
      rw [List.getLast?_cons] at h
      cases hg : s.getLast? with
      | none => exact hs.1 (List.getLast?_eq_none_iff.1 hg)
      | some x =>
        rw [hg] at h
        simp at h
        subst h
        exact hs.2 (List.mem_of_getLast? hg)

/-! ### The path of the result -/

theorem segComp_none_iff {s : Str} : segComp s = none ↔ s = [] ∨ s = b!"." := by
  unfold segComp
  split
  · simp [*]
  · split <;> simp [*]

theorem segComp_ne_cur {s : Str} : segComp s ≠ some .cur ∧ segComp s ≠ some .root := by
  unfold segComp
  split
  · simp
  · split <;> simp

theorem head_filterMap_seg (segs : List Str) :
    (match segs.filterMap segComp with
      | .normal v :: _ => if 58 ∈ v then some v else none
      | _ => none) = drive segs := by
  induction segs with
  | nil => rfl
  | cons s rest ih =>
    by_cases hs : s = [] ∨ s = b!"."
    · rw [List.filterMap_cons_none (segComp_none_iff.2 hs), ih]
      unfold drive
      rw [List.filter_cons_of_neg (by rcases hs with h | h <;> simp [h])]
    · unfold drive
      rw [List.filter_cons_of_pos (by simpa [not_or] using hs)]
      dsimp only
      by_cases hd : s = b!".."
      · rw [List.filterMap_cons_some (b := Comp.parent) (by simp only [segComp, if_neg hs, if_pos hd])]
        simp [hd]
      · rw [List.filterMap_cons_some (b := Comp.normal s) (by simp only [segComp, if_neg hs, if_neg hd])]

theorem basePrefix_eq (segs : List Str) : basePrefix (.root :: segs.filterMap segComp) = drive segs := by
  rw [← head_filterMap_seg]
  unfold basePrefix
  cases segs.filterMap segComp with
  | nil => rfl
  | cons x l => cases x <;> rfl

theorem addPrefix_eq (segs : List Str) : addPrefix (segs.filterMap segComp) = (drive segs).isNone := by
  rw [← head_filterMap_seg]
  unfold addPrefix
  cases segs.filterMap segComp with
  | nil => rfl
  | cons x l =>
    cases x with
    | normal v => by_cases h : 58 ∈ v <;> simp [h]
    | _ => rfl

theorem components_root {p : Str} (h : p.head? = some 47) :
    components p = .root :: (splitSlash p).filterMap segComp := by
  unfold components
  rw [if_pos h]
  cases p with
  | nil => simp at h
  | cons b t =>
    simp at h
    subst h
    show _ = Comp.root :: (([] : Str) :: splitSlash t).filterMap segComp
    rw [List.filterMap_cons_none (segComp_none_iff.2 (.inl rfl))]
    rfl

theorem components_relative {p : Str} (h : p.head? ≠ some 47) :
    (components p).filter (· ≠ .cur) = (splitSlash p).filterMap segComp := by
  have hf : ∀ l : List Str, (l.filterMap segComp).filter (· ≠ .cur) = l.filterMap segComp := by
    intro l
    rw [List.filter_eq_self]
    intro c hc
    obtain ⟨s, _, hs⟩ := List.mem_filterMap.1 hc
    simp only [ne_eq, decide_eq_true_eq]
    intro e
    subst e
    exact segComp_ne_cur.1 hs
  unfold components
  rw [if_neg h]
  split
  · rename_i hd
    rw [List.filter_cons_of_neg (by simp), hf]
    cases hs : splitSlash p with
    | nil => rfl
    | cons x l =>
      rw [hs] at hd
      simp only [List.head?_cons, Option.some.injEq] at hd
      rw [List.filterMap_cons_none (segComp_none_iff.2 (.inr hd))]
      rfl
  · exact hf _

theorem splitUri_suffix {s : Str} (hq : (splitUri s).query = none) (hf : (splitUri s).fragment = none) :
    ∃ x, s = x ++ (splitUri s).path := by
  have h1 : ∃ x, s = x ++ (splitScheme s).2 := by
    unfold splitScheme
    dsimp only
    split
    · rename_i hc
      simp only [Bool.and_eq_true, beq_iff_eq] at hc
      refine ⟨s.takeWhile (fun b => b != 58 && b != 47 && b != 63 && b != 35) ++ [58], ?_⟩
      have := List.takeWhile_append_dropWhile (p := fun b => b != 58 && b != 47 && b != 63 && b != 35) (l := s)
      cases hd : s.dropWhile (fun b => b != 58 && b != 47 && b != 63 && b != 35) with
      | nil => rw [hd] at hc; simp at hc
      | cons b t =>
        rw [hd] at hc this
        simp at hc
        rw [hc.2] at this
        simp only [List.tail_cons, List.append_assoc, List.cons_append, List.nil_append]
        exact this.symm
    · exact ⟨[], rfl⟩
  have h2 : ∀ t, ∃ x, t = x ++ (splitAuthority t).2 := by
    intro t
    unfold splitAuthority
    split
    · rename_i t
      refine ⟨47 :: 47 :: t.takeWhile (fun b => b != 47 && b != 63 && b != 35), ?_⟩
      simp only [List.cons_append]
      rw [List.takeWhile_append_dropWhile]
    · exact ⟨[], rfl⟩
  obtain ⟨x, hx⟩ := h1
  obtain ⟨y, hy⟩ := h2 (splitScheme s).2
  refine ⟨x ++ y, ?_⟩
  unfold splitUri at hq hf ⊢
  dsimp only at hq hf ⊢
  generalize (splitAuthority (splitScheme s).2).2 = r at hq hf hy ⊢
  have hr : r.takeWhile (fun b => b != 63 && b != 35) = r := by
    have hd : r.dropWhile (fun b => b != 63 && b != 35) = [] := by
      cases hd : r.dropWhile (fun b => b != 63 && b != 35) with
      | nil => rfl
      | cons b t =>
        have hb := List.head_dropWhile_not (fun b : Nat => b != 63 && b != 35) (l := r) (by rw [hd]; simp)
        simp only [hd, List.head_cons] at hb
        rw [hd] at hq hf
        by_cases h63 : b = 63
        · subst h63; simp [splitQuery] at hq
        · have h35 : b = 35 := by
            simp [h63] at hb
            exact hb
          subst h35
          simp [splitQuery, splitFragment] at hf
    have := List.takeWhile_append_dropWhile (p := fun b => b != 63 && b != 35) (l := r)
    rw [hd, List.append_nil] at this
    exact this
  rw [hr, List.append_assoc, ← hy, ← hx]

theorem baseDir_eq {base : Str} (hq : (splitUri base).query = none) (hf : (splitUri base).fragment = none)
    (hp : (splitUri base).path.head? = some 47)
    (hl : (segments (splitUri base).path).getLast? ≠ some b!".") :
    baseDir base (splitUri base).path =
      .root :: ((segments (splitUri base).path).dropLast.filterMap segComp) := by
  obtain ⟨x, hx⟩ := splitUri_suffix hq hf
  have hlast : base.getLast? = (splitUri base).path.getLast? := by
    have hne : (splitUri base).path ≠ [] := by
      intro h; rw [h] at hp; simp at hp
    conv => lhs; rw [hx]
    rw [List.getLast?_append, List.getLast?_eq_some_getLast hne]
    rfl
  generalize (splitUri base).path = p at hp hl hlast ⊢
  unfold segments at hl ⊢
  unfold baseDir
  rw [hlast]
  have hsplit : splitSlash p = (splitSlash p).dropLast ++ [(splitSlash p).getLast (splitSlash_ne_nil p)] :=
    (List.dropLast_concat_getLast (splitSlash_ne_nil p)).symm
  split
  · rename_i h
    obtain ⟨p0, rfl⟩ := endsSlash h
    rw [components_root hp]
    have e : splitSlash (p0 ++ [47]) = splitSlash p0 ++ [[]] := splitSlash_append_slash p0 []
    rw [e, List.dropLast_concat, List.filterMap_append]
    simp [segComp]
  · rename_i h
    have hlne : (splitSlash p).getLast (splitSlash_ne_nil p) ≠ [] := by
      intro he
      apply h
      rw [he] at hsplit
      have key : ∀ (q : Str), (splitSlash q).getLast? = some [] → q = [] ∨ q.getLast? = some 47 := by
        intro q
        induction q with
        | nil => intro _; exact .inl rfl
        | cons b t ih =>
          intro hq
          right
          unfold splitSlash at hq
          by_cases hb : b = 47
          · rw [if_pos hb] at hq
            cases hs : splitSlash t with
            | nil => exact absurd hs (splitSlash_ne_nil t)
            | cons y l =>
              rw [hs, List.getLast?_cons_cons, ← hs] at hq
              rcases ih hq with rfl | h
              · simp [hb]
              · rw [List.getLast?_cons, h]; rfl
          · rw [if_neg hb] at hq
            cases hs : splitSlash t with
            | nil => exact absurd hs (splitSlash_ne_nil t)
            | cons y l =>
              rw [hs] at hq
              cases l with
              | nil => simp at hq
              | cons z l =>
                dsimp only at hq
                rw [List.getLast?_cons_cons] at hq
                have : (splitSlash t).getLast? = some [] := by rw [hs, List.getLast?_cons_cons]; exact hq
                rcases ih this with rfl | h
                · simp [splitSlash] at hs
                · rw [List.getLast?_cons, h]; rfl
      rcases key p (by rw [hsplit]; simp) with h | h
      · subst h; simp at hp
      · exact h
    rw [components_root hp]
    obtain ⟨c, hc⟩ : ∃ c, segComp ((splitSlash p).getLast (splitSlash_ne_nil p)) = some c := by
      cases hc : segComp ((splitSlash p).getLast (splitSlash_ne_nil p)) with
      | some c => exact ⟨c, rfl⟩
      | none =>
        rcases segComp_none_iff.1 hc with h | h
        · exact absurd h hlne
        · rw [List.getLast?_eq_some_getLast (splitSlash_ne_nil p), h] at hl
          exact absurd rfl hl
    have hcr : c ≠ .root := fun e => segComp_ne_cur.2 (e ▸ hc)
    have e : (splitSlash p).filterMap segComp = (splitSlash p).dropLast.filterMap segComp ++ [c] := by
      conv => lhs; rw [hsplit]
      rw [List.filterMap_append, List.filterMap_cons_some hc]
      rfl
    unfold popPath
    rw [e, ← List.cons_append, List.getLast?_concat, if_neg (by simpa using hcr), List.dropLast_concat]

theorem resolvedPath_eq {reference base : Str} {out : List Str}
    (hq : (splitUri base).query = none) (hf : (splitUri base).fragment = none)
    (hp : (splitUri base).path.head? = some 47)
    (hl : (segments (splitUri base).path).getLast? ≠ some b!".")
    (hw : walk (start (splitUri base).path (splitUri reference).path)
      (target (splitUri base).path (splitUri reference).path) = some out) :
    resolvedPath reference base = dirComps out := by
  unfold resolvedPath
  rw [baseDir_eq hq hf hp hl]
  generalize (splitUri base).path = p at hp hl hw ⊢
  generalize (splitUri reference).path = rp at hw ⊢
  unfold newPath
  rw [basePrefix_eq]
  by_cases hr : rp.head? = some 47
  · unfold joinPath
    rw [if_pos (by simp [hr]), components_root hr]
    unfold target start at hw
    rw [if_pos hr] at hw
    unfold segments at hw ⊢
    rw [← foldl_walk hw]
    show List.foldl nextComp (firstComp _ (Comp.root :: _)) _ = _
    congr 1
    unfold firstComp
    dsimp only
    rw [addPrefix_eq]
    cases hd : drive (splitSlash p).dropLast with
    | none => simp [dirComps]
    | some v =>
      cases hd2 : drive (splitSlash rp) with
      | none => simp [dirComps, hr]
      | some w => simp [dirComps]
  · unfold joinPath
    rw [if_neg (by simp [hr]), components_relative hr, List.cons_append, ← List.filterMap_append]
    unfold target start at hw
    rw [if_neg hr, if_neg (fun h => hr h.1)] at hw
    unfold segments at hw ⊢
    rw [← foldl_walk hw]
    show List.foldl nextComp (firstComp _ (Comp.root :: _)) _ = _
    congr 1
    unfold firstComp
    dsimp only
    rw [addPrefix_eq]
    cases hd : drive (splitSlash p).dropLast with
    | none => rfl
    | some v =>
      have : drive ((splitSlash p).dropLast ++ splitSlash rp) = some v := by
        unfold drive at hd ⊢
        rw [List.filter_append]
        split at hd
        · rename_i s l hs
          rw [hs]
          exact hd
        · cases hd
      rw [this]
      rfl

end Html
