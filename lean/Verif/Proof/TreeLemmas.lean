import Verif.Proof.Utf8
import Verif.Model.Parser
import Verif.Spec.Tree

/-! # Facts about the vocabulary of `Spec/Tree.lean`, attribute maps and names -/

namespace Html
open Spec

/-! ### `At` -/

theorem Spec.At.nil (src : Str) (i : Nat) : At src i [] := ⟨_, rfl⟩

theorem Spec.At.append {src : Str} {i : Nat} {x y : Str} (h1 : At src i x) (h2 : At src (i + x.length) y) :
    At src i (x ++ y) := by
  obtain ⟨r, hr⟩ := h1
  obtain ⟨q, hq⟩ := h2
  refine ⟨q, ?_⟩
  rw [← List.drop_drop, hr, List.drop_left] at hq
  rw [hr, hq, List.append_assoc]

theorem at_take (src : Str) (i n : Nat) : At src i ((src.drop i).take n) :=
  ⟨(src.drop i).drop n, (List.take_append_drop n _).symm⟩

theorem at_prefix {src l : Str} {i : Nat} (h : l.isPrefixOf (src.drop i) = true) : At src i l := by
  rw [List.isPrefixOf_iff_prefix] at h
  obtain ⟨t, h⟩ := h
  exact ⟨t, h.symm⟩

theorem at_single {src : Str} {i b : Nat} (h : src[i]? = some b) : At src i [b] := by
  have h2 : (src.drop i).head? = some b := by simpa using h
  obtain ⟨t, ht⟩ := head_cons h2
  exact ⟨t, ht⟩

theorem at_get {src : Str} {i b : Nat} (h : At src i [b]) : src[i]? = some b := by
  obtain ⟨r, h⟩ := h
  have : (src.drop i).head? = some b := by rw [h]; rfl
  simpa using this

/-! ### Names -/

theorem runLen_stop {p : Nat → Bool} {s : Str} {b : Nat} (h : s[runLen p s]? = some b)
    (hb : b < 128) : p b = false := by
  induction s with
  | nil => simp [runLen] at h
  | cons a t ih =>
    simp only [runLen] at h
    split at h
    · rw [Nat.add_comm 1] at h; exact ih (by simpa using h)
    · split at h
      · rw [Nat.add_comm 1] at h; exact ih (by simpa using h)
      · rename_i h2
        simp only [List.getElem?_cons_zero, Option.some.injEq] at h
        subst h
        simpa [codePoint, hb] using h2

theorem alnum_word {b : Nat} (h : alnum b) : isWordAscii b = true := by
  unfold alnum at h
  simp only [isWordAscii, Bool.or_eq_true, Bool.and_eq_true, decide_eq_true_eq, beq_iff_eq]
  omega

theorem alnum_lt {b : Nat} (h : alnum b) : b < 128 := by unfold alnum at h; omega

theorem nameRest_of_byte {u : Uni} {b : Nat} (h : NameByte b) : b < 128 ∧ nameRest u b = true := by
  unfold NameByte at h
  rcases h with h | h | h | h | h
  · refine ⟨alnum_lt h, ?_⟩
    simp [nameRest, isWordCP, alnum_lt h, alnum_word h]
  all_goals subst h; simp [nameRest]

theorem nameFirst_of_byte {u : Uni} {b : Nat} (h : NameStartByte b) : b < 128 ∧ nameFirst u b = true := by
  unfold NameStartByte at h
  rcases h with h | h | h
  · refine ⟨alnum_lt h, ?_⟩
    simp [nameFirst, isWordCP, alnum_lt h, alnum_word h]
  all_goals subst h; simp [nameFirst]

theorem elementName_stop {u : Uni} {r : Str} {b : Nat} (h0 : 0 < elementNameLen u r)
    (h : r[elementNameLen u r]? = some b) : ¬ NameByte b := by
  intro hb
  have ⟨h1, h2⟩ := nameRest_of_byte (u := u) hb
  unfold elementNameLen firstRunLen at h h0
  cases r with
  | nil => simp at h0
  | cons a t =>
    simp only at h h0
    split at h
    · rw [Nat.add_comm 1] at h
      have := runLen_stop (p := nameRest u) (s := t) (by simpa using h) h1
      rw [h2] at this; cases this
    · rename_i h3; rw [if_neg h3] at h0; omega

theorem elementName_none {u : Uni} {r : Str} {b : Nat} (h0 : elementNameLen u r = 0)
    (h : r.head? = some b) : ¬ NameStartByte b := by
  intro hb
  have ⟨h1, h2⟩ := nameFirst_of_byte (u := u) hb
  obtain ⟨t, rfl⟩ := head_cons h
  simp [elementNameLen, firstRunLen, codePoint, h1, h2] at h0

theorem Spec.NameAfter.mono {src : Str} {i hi hi' : Nat} {n : Option Str} (h : NameAfter src i n hi)
    (hle : hi ≤ hi') : NameAfter src i n hi' := by
  cases n with
  | none => obtain ⟨w, h1, h2, h3, h4⟩ := h; exact ⟨w, h1, h2, h3, by omega⟩
  | some t => obtain ⟨w, h1, h2, h3, h4, h5⟩ := h; exact ⟨w, h1, h2, h3, h4, by omega⟩

/-- `NameAfter`, and the name is what the scanner takes for a name. -/
structure NameIs (u : Uni) (src : Str) (i : Nat) (name : Option Str) (hi : Nat) : Prop where
  spec : NameAfter src i name hi
  len : ∀ t, name = some t → ∃ w, Spaces w ∧ At src i (w ++ t) ∧ i + w.length + t.length ≤ hi ∧
    isBoundary src (i + w.length) = true ∧ elementNameLen u (src.drop (i + w.length)) = t.length

theorem NameIs.mono {u : Uni} {src : Str} {i hi hi' : Nat} {n : Option Str} (h : NameIs u src i n hi)
    (hle : hi ≤ hi') : NameIs u src i n hi' := by
  refine ⟨h.spec.mono hle, fun t ht => ?_⟩
  obtain ⟨w, h1, h2, h3, h4⟩ := h.len t ht
  exact ⟨w, h1, h2, by omega, h4⟩

theorem Spec.AttrAt.mono {src : Str} {lo hi hi' : Nat} {k : Str} {a : Attr} (h : AttrAt src lo hi k a)
    (hle : hi ≤ hi') : AttrAt src lo hi' k a := by
  unfold AttrAt at *
  refine ⟨h.1, h.2.1, ?_⟩
  have h := h.2.2
  revert h
  cases a.value with
  | none => intro h; exact ⟨h.1, by have := h.2; omega⟩
  | some v =>
    rintro ⟨w, h1, h2, h3, h4⟩
    exact ⟨w, h1, h2, by omega, h4⟩

/-! ### Attribute maps -/

theorem attrGet_insert (m : List (Str × Attr)) (k : Str) (v : Attr) :
    attrGet (attrInsert m k v) k = some v := by
  induction m with
  | nil => simp [attrInsert, attrGet]
  | cons x m ih =>
    simp only [attrInsert]
    split
    · simp [attrGet]
    · rename_i h; simp [attrGet, h, ih]

theorem mem_attrInsert {m : List (Str × Attr)} {k : Str} {v : Attr} {x : Str × Attr}
    (h : x ∈ attrInsert m k v) : x = (k, v) ∨ x ∈ m := by
  induction m with
  | nil => simp [attrInsert] at h; exact .inl h
  | cons y m ih =>
    simp only [attrInsert] at h
    split at h
    · rcases List.mem_cons.1 h with h | h
      · exact .inl h
      · exact .inr (List.mem_cons_of_mem _ h)
    · rcases List.mem_cons.1 h with h | h
      · exact .inr (h ▸ List.mem_cons_self)
      · rcases ih h with h | h
        · exact .inl h
        · exact .inr (List.mem_cons_of_mem _ h)

theorem attrInsert_keys {m : List (Str × Attr)} {k k2 : Str} {v : Attr} :
    k2 ∈ (attrInsert m k v).map (·.1) ↔ k2 = k ∨ k2 ∈ m.map (·.1) := by
  induction m with
  | nil => simp [attrInsert]
  | cons y m ih =>
    simp only [attrInsert]
    split
    · rename_i h; simp [h]
    · simp only [List.map_cons, List.mem_cons, ih]
      constructor
      · rintro (h | h | h) <;> simp [h]
      · rintro (h | h | h) <;> simp [h]

theorem attrInsert_nodup {m : List (Str × Attr)} {k : Str} {v : Attr}
    (h : (m.map (·.1)).Nodup) : ((attrInsert m k v).map (·.1)).Nodup := by
  induction m with
  | nil => simp [attrInsert]
  | cons y m ih =>
    rw [List.map_cons, List.nodup_cons] at h
    simp only [attrInsert]
    split
    · rename_i h2; rw [List.map_cons, List.nodup_cons]; exact ⟨h2 ▸ h.1, h.2⟩
    · rename_i h2
      rw [List.map_cons, List.nodup_cons]
      refine ⟨?_, ih h.2⟩
      rw [attrInsert_keys]
      rintro (h3 | h3)
      · exact h2 h3
      · exact h.1 h3

theorem attrGet_mem {m : List (Str × Attr)} {k : Str} {a : Attr} (h : attrGet m k = some a) :
    (k, a) ∈ m := by
  induction m with
  | nil => simp [attrGet] at h
  | cons y m ih =>
    simp only [attrGet] at h
    split at h
    · rename_i h2; cases h; subst h2; exact List.mem_cons_self
    · exact List.mem_cons_of_mem _ (ih h)

theorem attrSetValue_eq (m : List (Str × Attr)) (k v : Str) :
    attrSetValue m k v = match attrGet m k with
      | none => .error .unwrap
      | some a => .ok (attrInsert m k { a with value := some v }) := by
  induction m with
  | nil => rfl
  | cons y m ih =>
    simp only [attrSetValue, attrGet]
    split
    · rename_i h; simp [attrInsert, h]
    · rename_i h
      rw [ih]
      cases attrGet m k with
      | none => rfl
      | some a => simp [attrInsert, h, bind, Except.bind]

/-! ### Tag names -/

/-- What the parser stores as end tag name. -/
def foldName (u : Uni) (cs : Bool) (t : Str) : Str := if cs then t else toLower u t

theorem isSameTag_iff (u : Uni) (cs : Bool) (n : Node) (raw : Option Str) :
    n.isSameTag u (raw.map (foldName u cs)) cs = true ↔ SameName u cs n.tag raw := by
  unfold Node.isSameTag SameName foldName
  cases hn : n.tag <;> cases raw <;> cases cs <;> simp

theorem Spec.SameName.trans {u : Uni} {cs : Bool} {a b d : Option Str} (h1 : SameName u cs a b)
    (h2 : SameName u cs b d) : SameName u cs a d := by
  unfold SameName at *; cases cs <;> simp_all

theorem Spec.SameName.symm {u : Uni} {cs : Bool} {a b : Option Str} (h1 : SameName u cs a b) :
    SameName u cs b a := by
  unfold SameName at *; cases cs <;> simp_all

/-! ### Siblings -/

theorem Spec.Siblings.mono {lo hi hi' : Nat} {l : List Node} (h : Siblings lo l hi) (hle : hi ≤ hi') :
    Siblings lo l hi' := by
  induction l generalizing lo with
  | nil => simp only [Siblings] at *; omega
  | cons n l ih => exact ⟨h.1, h.2.1, ih h.2.2⟩

theorem Spec.Siblings.le {lo hi : Nat} {l : List Node} (h : Siblings lo l hi) : lo ≤ hi := by
  induction l generalizing lo with
  | nil => exact h
  | cons n l ih => have := ih h.2.2; have := h.1; have := h.2.1; omega

theorem Spec.Siblings.mem {lo hi : Nat} {l : List Node} {d : Node} (h : Siblings lo l hi) (hd : d ∈ l) :
    lo ≤ d.start ∧ d.start < d.stop ∧ d.stop ≤ hi := by
  induction l generalizing lo with
  | nil => cases hd
  | cons n l ih =>
    obtain ⟨h1, h2, h3⟩ := h
    have := Spec.Siblings.le h3
    rcases List.mem_cons.1 hd with rfl | hd
    · exact ⟨h1, h2, this⟩
    · have := ih h3 hd
      exact ⟨by omega, this.2⟩

theorem Spec.Siblings.mem_le {lo hi : Nat} {l : List Node} {d : Node} (h : Siblings lo l hi)
    (hd : d ∈ l) : d.stop ≤ hi := (h.mem hd).2.2

theorem Spec.Siblings.snoc {lo hi : Nat} {l : List Node} {n : Node} (h : Siblings lo l n.start)
    (h1 : n.start < n.stop) (h2 : n.stop ≤ hi) : Siblings lo (l ++ [n]) hi := by
  induction l generalizing lo with
  | nil => exact ⟨h, h1, h2⟩
  | cons m l ih => exact ⟨h.1, h.2.1, ih h.2.2⟩

/-! ### Open chains -/

theorem Spec.OpenInside.head {n m : Node} (h : OpenInside n m) :
    ∃ d ∈ n.children, LeftOpen d ∧ (m = d ∨ OpenInside d m) := by
  induction h with
  | child h ho => exact ⟨_, h, ho, .inl rfl⟩
  | @step m k hm h ho ih =>
    obtain ⟨d, hd, ho2, h2 | h2⟩ := ih
    · subst h2; exact ⟨_, hd, ho2, .inr (.child h ho)⟩
    · exact ⟨d, hd, ho2, .inr (.step h2 h ho)⟩

end Html
