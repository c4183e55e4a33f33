import Verif.Spec.LanguageFacts

/-!
# Lemmas about the language facts
-/

namespace Html

/-! ### Sorting -/

theorem strLe_total : ∀ a b : Str, strLe a b = false → strLe b a = true
  | [], _, h => by simp [strLe] at h
  | _ :: _, [], _ => by simp [strLe]
  | a :: s, b :: t, h => by
    simp only [strLe] at h ⊢
    by_cases h1 : a < b
    · simp [h1] at h
    · by_cases h2 : b < a
      · simp [h2]
      · simp only [h1, h2, if_false] at h ⊢
        exact strLe_total s t h

theorem strLe_iff : ∀ a b : Str, strLe a b = true ↔ a ≤ b
  | [], b => by simp [strLe]
  | _ :: _, [] => by simp [strLe]
  | a :: s, b :: t => by
    simp only [strLe]
    rw [List.cons_le_cons_iff, ← strLe_iff s t]
    by_cases h1 : a < b
    · simp [h1]
    · by_cases h2 : b < a
      · simp [h1, h2]; omega
      · have : a = b := by omega
        simp [this]

theorem strInsert_perm (x : Str) : ∀ l : List Str, (strInsert x l).Perm (x :: l)
  | [] => .refl _
  | y :: t => by
    unfold strInsert
    split
    · exact .refl _
    · exact (List.Perm.cons y (strInsert_perm x t)).trans (.swap x y t)

theorem strSort_perm : ∀ l : List Str, (strSort l).Perm l
  | [] => .refl _
  | x :: t => (strInsert_perm x (strSort t)).trans (.cons x (strSort_perm t))

theorem strInsert_sorted (x : Str) : ∀ l : List Str, l.Pairwise (· ≤ ·) →
    (strInsert x l).Pairwise (· ≤ ·)
  | [], _ => by simp [strInsert]
  | y :: t, h => by
    unfold strInsert
    obtain ⟨h1, h2⟩ := List.pairwise_cons.1 h
    split
    · rename_i hle
      rw [strLe_iff] at hle
      refine List.pairwise_cons.2 ⟨fun z hz => ?_, h⟩
      rcases List.mem_cons.1 hz with rfl | hz
      · exact hle
      · exact List.le_trans hle (h1 z hz)
    · rename_i hle
      have hyx : y ≤ x := (strLe_iff _ _).1 (strLe_total _ _ (by simpa using hle))
      refine List.pairwise_cons.2 ⟨fun z hz => ?_, strInsert_sorted x t h2⟩
      rcases List.mem_cons.1 ((strInsert_perm x t).mem_iff.1 hz) with rfl | hz
      · exact hyx
      · exact h1 z hz

theorem strSort_sorted : ∀ l : List Str, (strSort l).Pairwise (· ≤ ·)
  | [] => .nil
  | x :: t => strInsert_sorted x _ (strSort_sorted t)

theorem voidTags_eq (lang : Str) : ∀ ps : List Provider,
    voidTags lang ps = (ps.filter (·.isApplicable lang)).flatMap Spec.voidNames
  | [] => rfl
  | p :: ps => by
    unfold voidTags
    rw [voidTags_eq lang ps, List.filter_cons]
    split
    · simp only [List.flatMap_cons, Spec.voidNames]
      congr 3
      funext t
      rw [Bool.eq_iff_iff]
      simp
    · simp

/-! ### The maps of the provider -/

theorem HMap.find_none {β : Type} {k : Str} : ∀ {m : HMap β}, HMap.find m k = none → ∀ e ∈ m, e.1 ≠ k
  | [], _, _, he => by simp at he
  | (k', v) :: m, h, e, he => by
    simp only [HMap.find] at h
    split at h
    · cases h
    · rcases List.mem_cons.1 he with rfl | he
      · assumption
      · exact HMap.find_none h e he

theorem HMap.find_mem {β : Type} {k : Str} {v : β} : ∀ {m : HMap β}, HMap.find m k = some v → (k, v) ∈ m
  | [], h => by cases h
  | (k', v') :: m, h => by
    simp only [HMap.find] at h
    split at h
    · rename_i hk
      cases h
      subst hk
      exact List.mem_cons_self
    · exact List.mem_cons_of_mem _ (HMap.find_mem h)

theorem HMap.find_unique {β : Type} {k : Str} : ∀ {m : HMap β}, (m.map (·.1)).Nodup → ∀ {e}, e ∈ m →
    e.1 = k → HMap.find m k = some e.2
  | [], _, _, he, _ => by simp at he
  | (k', v) :: m, hn, e, he, hk => by
    rw [List.map_cons, List.nodup_cons] at hn
    simp only [HMap.find]
    rcases List.mem_cons.1 he with rfl | he
    · simp at hk
      simp [hk]
    · rw [if_neg]
      · exact HMap.find_unique hn.2 he hk
      · rintro rfl
        exact hn.1 (List.mem_map.2 ⟨e, he, hk⟩)

theorem tagMapFrom_find (k : Str) : ∀ (ts : List TagData) (i : Nat) (m : HMap Nat) (pre : List TagData),
    pre.length = i →
    (∀ j, HMap.find m k = some j → pre[j]? = Spec.lastNamed (·.name) pre k ∧ j < pre.length) →
    (HMap.find m k = none → Spec.lastNamed (·.name) pre k = none) →
    (∀ j, HMap.find (tagMapFrom i ts m) k = some j →
        (pre ++ ts)[j]? = Spec.lastNamed (·.name) (pre ++ ts) k ∧ j < (pre ++ ts).length) ∧
      (HMap.find (tagMapFrom i ts m) k = none → Spec.lastNamed (·.name) (pre ++ ts) k = none)
  | [], i, m, pre, _, h1, h2 => by
    simp only [tagMapFrom, List.append_nil]
    exact ⟨h1, h2⟩
  | t :: ts, i, m, pre, hi, h1, h2 => by
    unfold tagMapFrom
    have := tagMapFrom_find k ts (i + 1) ((t.name, i) :: m) (pre ++ [t]) (by simp [hi]) ?_ ?_
    · simpa using this
    · intro j hj
      simp only [HMap.find] at hj
      by_cases hk : t.name = k
      · simp only [hk, if_true] at hj
        obtain rfl : i = j := by simpa using hj
        subst hi
        simp [Spec.lastNamed, List.filter_append, hk]
      · simp only [hk, if_false] at hj
        obtain ⟨h3, h4⟩ := h1 j hj
        refine ⟨?_, by simp; omega⟩
        rw [List.getElem?_append_left h4, h3]
        simp [Spec.lastNamed, List.filter_append, hk]
    · intro hj
      simp only [HMap.find] at hj
      by_cases hk : t.name = k
      · simp [hk] at hj
      · simp only [hk, if_false] at hj
        have := h2 hj
        simpa [Spec.lastNamed, List.filter_append, hk] using this

/-- The tag table finds the last entry with a name. -/
theorem entry_new (u : Uni) (id : Str) (data : HTMLData) (cs : Bool) (tag : Str) :
    (DataProvider.new id data cs).entry u tag =
      .ok (Spec.lastNamed (·.name) (data.tags.getD []) (if cs then tag else toLower u tag)) := by
  unfold DataProvider.entry DataProvider.query DataProvider.new
  dsimp only
  generalize hk : (if cs = true then tag else toLower u tag) = k
  obtain ⟨h1, h2⟩ := tagMapFrom_find k (data.tags.getD []) 0 [] [] rfl (by simp [HMap.find])
    (by simp [Spec.lastNamed])
  simp only [List.nil_append] at h1 h2
  cases hf : HMap.find (tagMapFrom 0 (data.tags.getD []) []) k with
  | none => simp only [h2 hf]
  | some j =>
    obtain ⟨h3, h4⟩ := h1 j hf
    simp only
    rw [← h3]
    rw [List.getElem?_eq_getElem h4]

theorem valueSetMap_find (k : Str) (sets : List ValueSet) (m : HMap (List ValueData)) :
    HMap.find (sets.foldl (fun m vs => (vs.name, vs.values) :: m) m) k =
      match Spec.lastNamed (·.name) sets k with
      | some vs => some vs.values
      | none => HMap.find m k := by
  induction sets generalizing m with
  | nil => rfl
  | cons vs sets ih =>
    rw [List.foldl_cons, ih]
    unfold Spec.lastNamed
    by_cases hk : vs.name = k
    · simp only [List.filter_cons, hk, decide_true, if_true, HMap.find]
      cases h : (sets.filter (fun a => decide (a.name = k))).getLast? with
      | none => simp [List.getLast?_cons, h]
      | some v => simp [List.getLast?_cons, h]
    · simp [List.filter_cons, hk, HMap.find]

theorem attrValues_new (id : Str) (data : HTMLData) (cs : Bool) (a : AttributeData) :
    (DataProvider.new id data cs).attrValues a = Spec.valuesOfEntry (data.valueSets.getD []) a := by
  unfold DataProvider.attrValues Spec.valuesOfEntry DataProvider.new
  dsimp only
  congr 1
  cases a.valueSet with
  | none => rfl
  | some vs =>
    simp only
    rw [valueSetMap_find]
    cases Spec.lastNamed (fun x => x.name) (data.valueSets.getD []) vs <;> rfl

theorem valuesOf_new (u : Uni) (id : Str) (data : HTMLData) (cs : Bool) (attr : Str) :
    ∀ l : List AttributeData, (DataProvider.new id data cs).valuesOf u attr l =
      (l.filter (fun a => (if cs then a.name else toLower u a.name) = attr)).flatMap
        (Spec.valuesOfEntry (data.valueSets.getD []))
  | [] => rfl
  | a :: l => by
    unfold DataProvider.valuesOf
    rw [valuesOf_new u id data cs attr l, List.filter_cons, attrValues_new]
    unfold DataProvider.sameAttr
    have : (DataProvider.new id data cs).caseSensitive = cs := rfl
    rw [this]
    by_cases h : (if cs = true then a.name else toLower u a.name) = attr
    · simp [h]
    · simp [h]

theorem lastNamed_name {α : Type} {name : α → Str} {l : List α} {x : Str} {a : α}
    (h : Spec.lastNamed name l x = some a) : a ∈ l ∧ name a = x := by
  have := List.mem_of_getLast? h
  simpa using this

/-! ### Lower case -/

theorem toLower_no_upper (u : Uni) {x : Str} (h : isAscii x) (b : Nat) (hb : b ∈ toLower u x) :
    ¬ (65 ≤ b ∧ b ≤ 90) := by
  unfold toLower at hb
  rw [if_pos (by simpa [isAscii] using h)] at hb
  obtain ⟨a, _, rfl⟩ := List.mem_map.1 hb
  unfold lowerByte
  split <;> omega

theorem Reference.format_pos (m : Bool) (r : Reference) : (r.format m).length > 0 := by
  unfold Reference.format
  split <;> simp <;> omega

theorem join_pos (sep x : Str) (t : List Str) (h : x.length > 0) : (join sep (x :: t)).length > 0 := by
  cases t <;> simp only [join, List.length_append] <;> omega

end Html
