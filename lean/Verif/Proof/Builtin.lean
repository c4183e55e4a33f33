import Verif.Model.BuiltinTags
import Verif.Model.Entities
import Verif.Proof.LanguageFacts
import Verif.Proof.Utf8
import Verif.Spec.Builtin
import Verif.Spec.Hover
import Verif.Model.Hover
import Verif.Spec.Ok

/-! # The tables of the built-in data -/

namespace Html

/-! ### Lists without repetition, by buckets -/

/-- A list has no repetitions if the parts with the same key have none. -/
theorem nodup_of_buckets {α κ : Type} [DecidableEq κ] (key : α → κ) (keys : List κ) :
    ∀ l : List α, (∀ a ∈ l, key a ∈ keys) → (∀ k ∈ keys, (l.filter (fun a => key a = k)).Nodup) → l.Nodup := by
  intro l
  induction l with
  | nil => intros; exact List.nodup_nil
  | cons a l ih =>
    intro h1 h2
    rw [List.nodup_cons]
    constructor
    · intro hm
      have := h2 (key a) (h1 a (List.mem_cons_self ..))
      rw [List.filter_cons, if_pos (by simp), List.nodup_cons] at this
      exact this.1 (List.mem_filter.2 ⟨hm, by simp⟩)
    · refine ih (fun b hb => h1 b (List.mem_cons_of_mem _ hb)) (fun k hk => ?_)
      have := h2 k hk
      rw [List.filter_cons] at this
      split at this
      · exact (List.nodup_cons.1 this).2
      · exact this

/-- A number for a name. -/
def nameCode (s : Str) : Nat := s.foldl (fun n b => n * 256 + b) 0

def distinct : List Nat → Bool
  | [] => true
  | a :: l => l.all (fun b => !Nat.beq a b) && distinct l

theorem distinct_nodup : ∀ {l : List Nat}, distinct l = true → l.Nodup
  | [], _ => List.nodup_nil
  | a :: l, h => by
    rw [distinct, Bool.and_eq_true, List.all_eq_true] at h
    rw [List.nodup_cons]
    exact ⟨fun hm => by have := h.1 a hm; simp at this, distinct_nodup h.2⟩

def bucket (n : Nat) : List Nat → List Nat
  | [] => []
  | a :: l => bif Nat.beq (a % 61) n then a :: bucket n l else bucket n l

theorem bucket_eq (n : Nat) : ∀ l, bucket n l = l.filter (fun a => a % 61 = n)
  | [] => rfl
  | a :: l => by
    rw [bucket, List.filter_cons, bucket_eq n l]
    by_cases h : a % 61 = n
    · simp [h]
    · have : Nat.beq (a % 61) n = false := Bool.eq_false_iff.2 fun e => h (Nat.eq_of_beq_eq_true e)
      simp [h, this]

/-- Names without repetition. -/
theorem names_nodup {l : List Str} (h : (List.range 61).all (fun n => distinct (bucket n (l.map nameCode))) = true) : l.Nodup := by
  have : (l.map nameCode).Nodup := by
    apply nodup_of_buckets (· % 61) (List.range 61)
    · intro a _
      exact List.mem_range.2 (Nat.mod_lt _ (by decide))
    · intro k hk
      rw [← bucket_eq]
      exact distinct_nodup (List.all_eq_true.1 h k hk)
  exact List.Pairwise.of_map nameCode (fun _ _ h e => h (by rw [e])) this

theorem entities_nodup : (builtinEntities.map (·.1)).Nodup := names_nodup (by decide +kernel)

/-! ### What the tables say, without the texts -/

/-- An attribute without its texts. -/
def attrSketch (a : AttributeData) : Str × Bool × Option Str × Bool := (a.name, a.description.isSome, a.valueSet, a.values.isNone)

/-- A tag without its texts. -/
def tagSketch (t : TagData) : Str × Bool × List (Str × Bool × Option Str × Bool) :=
  (t.name, t.description.isSome, t.attributes.map attrSketch)

/-- A value set without its texts. -/
def setSketch (s : ValueSet) : Str × List Str := (s.name, s.values.map (·.name))

def noDoc : Nat → Str := fun _ => []

theorem tags_sketch (doc : Nat → Str) : (Builtin.tags doc).map tagSketch = (Builtin.tags noDoc).map tagSketch := by krfl

theorem globals_sketch (doc : Nat → Str) : (Builtin.globals doc).map attrSketch = (Builtin.globals noDoc).map attrSketch := by krfl

theorem sets_sketch (doc : Nat → Str) : (Builtin.valueSets doc).map setSketch = (Builtin.valueSets noDoc).map setSketch := by krfl

theorem of_sketch {α β : Type} {f : α → β} {l l' : List α} (h : l.map f = l'.map f) {a : α} (ha : a ∈ l) : ∃ b ∈ l', f b = f a := by
  have := List.mem_map_of_mem (f := f) ha
  rw [h, List.mem_map] at this
  exact this

theorem names_of_sketch (doc : Nat → Str) : (Builtin.tags doc).map (·.name) = (Builtin.tags noDoc).map (·.name) := by
  have := congrArg (List.map Prod.fst) (tags_sketch doc)
  simpa [List.map_map, tagSketch, Function.comp_def] using this

theorem tags_nodup (doc : Nat → Str) : ((Builtin.tags doc).map (·.name)).Nodup := by
  rw [names_of_sketch]
  exact names_nodup (by decide +kernel)

theorem sets_nodup (doc : Nat → Str) : ((Builtin.valueSets doc).map (·.name)).Nodup := by
  have := congrArg (List.map Prod.fst) (sets_sketch doc)
  simp only [List.map_map, setSketch, Function.comp_def] at this
  rw [this]
  exact names_nodup (by decide +kernel)

theorem globals_nodup (doc : Nat → Str) : ((Builtin.globals doc).map (·.name)).Nodup := by
  have := congrArg (List.map Prod.fst) (globals_sketch doc)
  simp only [List.map_map, attrSketch, Function.comp_def] at this
  rw [this]
  exact names_nodup (by decide +kernel)

/-- With different names the only entry is the last one. -/
theorem lastNamed_mem {α : Type} {name : α → Str} : ∀ {l : List α}, (l.map name).Nodup → ∀ {a : α}, a ∈ l →
    Spec.lastNamed name l (name a) = some a := by
  intro l h a ha
  have : l.filter (fun x => decide (name x = name a)) = [a] := by
    induction l with
    | nil => cases ha
    | cons b l ih =>
      rw [List.map_cons, List.nodup_cons] at h
      rw [List.filter_cons]
      rcases List.mem_cons.1 ha with rfl | ha'
      · rw [if_pos (by simp)]
        congr 1
        rw [List.filter_eq_nil_iff]
        intro x hx
        simp only [decide_eq_true_eq]
        exact fun e => h.1 (e ▸ List.mem_map_of_mem hx)
      · rw [if_neg (by
          simp only [decide_eq_true_eq]
          exact fun e => h.1 (e ▸ List.mem_map_of_mem ha')), ih h.2 ha']
  unfold Spec.lastNamed
  rw [this]
  rfl

theorem lastNamed_none {α : Type} {name : α → Str} {l : List α} {x : Str} (h : ∀ a ∈ l, name a ≠ x) :
    Spec.lastNamed name l x = none := by
  unfold Spec.lastNamed
  rw [List.filter_eq_nil_iff.2 (by simpa using h)]
  rfl

theorem toLower_lowerName (u : Uni) {s : Str} (h : Spec.LowerName s) : toLower u s = s := by
  unfold toLower
  have : s.all (· < 128) = true := by
    rw [List.all_eq_true]
    intro b hb
    have := h.2 b hb
    simp only [decide_eq_true_eq]
    omega
  rw [if_pos this]
  conv => rhs; rw [← List.map_id s]
  apply List.map_congr_left
  intro b hb
  have := h.2 b hb
  unfold lowerByte
  rw [if_neg (by omega)]
  rfl

/-! ### Hexadecimal numbers -/

theorem hexDigits_spec : ∀ (f n : Nat), n < 16 ^ f → 0 < f →
    Spec.HexDigits (hexDigits f n) ∧ Spec.hexValue (hexDigits f n) = n ∧ hexDigits f n ≠ [] := by
  intro f
  induction f with
  | zero => intro n _ h; omega
  | succ f ih =>
    intro n h _
    unfold hexDigits
    split
    · rename_i hn
      refine ⟨fun b hb => ?_, ?_, by simp⟩
      · simp only [List.mem_singleton] at hb
        subst hb
        unfold hexDigit
        split <;> omega
      · simp only [Spec.hexValue, List.foldl_cons, List.foldl_nil, hexDigit]
        split <;> split <;> omega
    · rename_i hn
      have hf : 0 < f := by
        rcases Nat.eq_zero_or_pos f with rfl | hf
        · simp at h; omega
        · exact hf
      have hlt : n / 16 < 16 ^ f := by
        rw [Nat.pow_succ] at h
        omega
      obtain ⟨h1, h2, h3⟩ := ih (n / 16) hlt hf
      refine ⟨fun b hb => ?_, ?_, by simp⟩
      · rcases List.mem_append.1 hb with hb | hb
        · exact h1 b hb
        · simp only [List.mem_singleton] at hb
          subst hb
          unfold hexDigit
          split <;> omega
      · simp only [Spec.hexValue, List.foldl_append, List.foldl_cons, List.foldl_nil] at h2 ⊢
        rw [h2]
        simp only [hexDigit]
        split <;> split <;> omega

theorem hexValue_zero (s : Str) (k : Nat) : Spec.hexValue (List.replicate k 48 ++ s) = Spec.hexValue s := by
  induction k with
  | zero => rfl
  | succ k ih =>
    rw [List.replicate_succ, List.cons_append, ← ih]
    rfl

theorem codePoints_conts : ∀ (l : Str) (t : Str), (∀ b ∈ l, isCont b = true) → codePoints (l ++ t) = codePoints t
  | [], t, _ => rfl
  | b :: l, t, h => by
    rw [List.cons_append, codePoints, if_pos (h b (List.mem_cons_self ..))]
    exact codePoints_conts l t fun b hb => h b (List.mem_cons_of_mem _ hb)

theorem codePoints_encodeCP {cp : Nat} (h : cp < 0x110000) (t : Str) :
    codePoints (Spec.encodeCP cp ++ t) = cp :: codePoints t := by
  have hc := codePoint_encodeCP h t
  have key : ∀ (b : Nat) (l : Str), Spec.encodeCP cp = b :: l → isCont b = false → (∀ b ∈ l, isCont b = true) →
      codePoints (Spec.encodeCP cp ++ t) = cp :: codePoints t := by
    intro b l e h1 h2
    rw [e] at hc ⊢
    rw [List.cons_append] at hc ⊢
    rw [codePoints, if_neg (by simp [h1]), hc, codePoints_conts l t h2]
  by_cases h1 : cp < 0x80
  · exact key cp [] (by rw [Spec.encodeCP, if_pos h1]) (by simp [isCont]; omega) (by simp)
  by_cases h2 : cp < 0x800
  · exact key _ _ (by rw [Spec.encodeCP, if_neg h1, if_pos h2]) (by simp [isCont]) (by simp [isCont]; omega)
  by_cases h3 : cp < 0x10000
  · exact key _ _ (by rw [Spec.encodeCP, if_neg h1, if_neg h2, if_pos h3]) (by simp [isCont]; omega) (by simp [isCont]; omega)
  · exact key _ _ (by rw [Spec.encodeCP, if_neg h1, if_neg h2, if_neg h3]) (by simp [isCont]; omega) (by simp [isCont]; omega)

theorem codePoints_utf8 {cps : List Nat} (h : ∀ c ∈ cps, c < 0x110000) : codePoints (cps.flatMap Spec.encodeCP) = cps := by
  induction cps with
  | nil => rfl
  | cons c cps ih =>
    rw [List.flatMap_cons, codePoints_encodeCP (h c (List.mem_cons_self ..)), ih fun c hc => h c (List.mem_cons_of_mem _ hc)]

/-! ### Character references -/

theorem find?_perm {l l' : HMap Str} (h : l.Perm l') (hn : (l'.map (·.1)).Nodup) {a : Str × Str} (ha : a ∈ l') {k : Str}
    (hk : a.1 = k) : l.find? (fun x => x.1 = k) = some a := by
  subst hk
  cases hf : l.find? (fun x => x.1 = a.1) with
  | none =>
    rw [List.find?_eq_none] at hf
    exact absurd (hf a (h.mem_iff.2 ha)) (by simp)
  | some b =>
    have hb := h.mem_iff.1 (List.mem_of_find?_eq_some hf)
    have hk := List.find?_some hf
    simp only [decide_eq_true_eq] at hk
    congr 1
    have h1 := lastNamed_mem (name := (·.1)) hn ha
    have h2 := lastNamed_mem (name := (·.1)) hn hb
    rw [hk] at h2
    exact Option.some.inj (h2.symm.trans h1)

end Html
