import Verif.Proof.Format
import Verif.Proof.Boundary

/-! # When formatting returns -/

namespace Html
open Spec

theorem Spec.Shown.sub {a b : List Node} (h : ∀ n ∈ a, n ∈ b) {n : Node} (hn : Shown a n) : Shown b n := by
  induction hn with
  | root hr => exact .root (h _ hr)
  | child _ he hc ih => exact .child ih he hc

theorem Spec.Shown.under {l : List Node} {m n : Node} (hm : Shown l m) (he : m.endTagStart ≠ none)
    (h : Shown m.children n) : Shown l n := by
  induction h with
  | root hr => exact .child hm he hr
  | child _ he' hc ih => exact .child ih he' hc

theorem Spec.Shown.split {l : List Node} {n : Node} (h : Shown l n) :
    ∃ m ∈ l, n = m ∨ (m.endTagStart ≠ none ∧ Shown m.children n) := by
  induction h with
  | root hr => exact ⟨_, hr, .inl rfl⟩
  | @child m n _ he hc ih =>
    obtain ⟨k, hk, ih⟩ := ih
    refine ⟨k, hk, .inr ?_⟩
    rcases ih with rfl | ⟨h1, h2⟩
    · exact ⟨he, .root hc⟩
    · exact ⟨h1, .child h2 he hc⟩

/-- Every shown element is an element. -/
theorem Spec.Shown.inForest {l : List Node} {n : Node} (h : Shown l n) : InForest l n := by
  induction h with
  | root hr => exact .root hr
  | child _ _ hc ih => exact .child ih hc

/-- The offsets of the node are what the formatter slices at. -/
structure Sliced (src : Str) (n : Node) : Prop where
  start : isBoundary src n.start = true
  stop : isBoundary src n.stop = true
  ets : ∀ e, n.endTagStart = some e → isBoundary src e = true ∧ ∃ s, n.startTagEnd = some s ∧ s ≤ e ∧
    isBoundary src s = true ∧ Siblings s n.children e

theorem textOnly_ok {o : FormatOptions} {src : Str} {level s e : Nat} {wrap : Bool} (h : s ≤ e)
    (h1 : isBoundary src s = true) (h2 : isBoundary src e = true) :
    ∃ t, textOnly o src level wrap s e = .ok t := by
  unfold textOnly
  split
  · exact ⟨_, rfl⟩
  · rw [sliceStr_eq h h1 h2]; exact ⟨_, rfl⟩

theorem nodeWrap_ok {o : FormatOptions} {src : Str} {level s e : Nat} {n : Node} {tag : Str} (h : s ≤ e)
    (h1 : isBoundary src s = true) (h2 : isBoundary src e = true) :
    ∃ t, nodeWrap o src level n tag s e = .ok t := by
  unfold nodeWrap
  rw [sliceStr_eq h h1 h2]
  simp only [bind, Except.bind]
  split
  · exact ⟨_, rfl⟩
  · cases o.wrapLineLength with
    | none => exact ⟨_, rfl⟩
    | some w => simp [subU, h]

mutual
theorem Node.beautify_ok {o : FormatOptions} {src : Str} {level : Nat} {n : Node}
    (hs : ∀ m, InForest [n] m → Sliced src m) (ht : ∀ m, Shown [n] m → m.tag ≠ none) :
    ∃ t, n.beautify o src level = .ok t := by
  match n, hs, ht with
  | ⟨tag, start, stop, children, closed, ste, ets, attrs⟩, hs, ht =>
    have h0 := ht _ (.root List.mem_cons_self)
    have hf := hs _ (.root List.mem_cons_self)
    cases tag with
    | none => exact absurd rfl h0
    | some tag =>
      unfold Node.beautify
      simp only [unwrap, bind, Except.bind]
      cases ets with
      | none => exact ⟨_, rfl⟩
      | some e =>
        obtain ⟨he, s, h1, h2, h3, h4⟩ := hf.ets e rfl
        dsimp only at h1
        subst h1
        dsimp only
        have hkids : ∃ t, Node.beautifyKids o src (level + 1) s e children = .ok t :=
          Node.beautifyKids_ok
            (fun m hm => hs m (InForest.under (List.mem_cons_self) hm))
            (fun m hm => ht m (Shown.under (.root List.mem_cons_self) (by simp) hm)) h3 he h4
        obtain ⟨kids, hk⟩ := hkids
        obtain ⟨wrap, hw⟩ := nodeWrap_ok (o := o) (level := level) (tag := tag)
          (n := ⟨some tag, start, stop, children, closed, some s, some e, attrs⟩) h2 h3 he
        have hx : ∃ t, leafText o src level wrap s e children = .ok t := by
          unfold leafText
          split
          · exact textOnly_ok h2 h3 he
          · exact ⟨_, rfl⟩
        obtain ⟨text, hx⟩ := hx
        rw [hk]; dsimp only
        rw [hw]; dsimp only
        rw [hx]; exact ⟨_, rfl⟩
theorem Node.beautifyKids_ok {o : FormatOptions} {src : Str} {level prev stop : Nat} {l : List Node}
    (hs : ∀ m, InForest l m → Sliced src m) (ht : ∀ m, Shown l m → m.tag ≠ none)
    (hp : isBoundary src prev = true) (he : isBoundary src stop = true) (hl : Siblings prev l stop) :
    ∃ t, Node.beautifyKids o src level prev stop l = .ok t := by
  match l, hs, ht, hl with
  | [], _, _, _ => exact ⟨_, rfl⟩
  | [c], hs, ht, hl =>
    obtain ⟨h1, h2, h3⟩ := hl
    have hf := hs c (.root List.mem_cons_self)
    obtain ⟨x, hx⟩ := Node.beautify_ok (o := o) (level := level) (n := c) hs ht
    unfold Node.beautifyKids
    rw [sliceStr_eq h1 hp hf.start, hx, sliceStr_eq h3 hf.stop he]
    exact ⟨_, rfl⟩
  | c :: d :: l, hs, ht, hl =>
    obtain ⟨h1, h2, h3⟩ := hl
    have hf := hs c (.root List.mem_cons_self)
    obtain ⟨x, hx⟩ := Node.beautify_ok (o := o) (level := level) (n := c)
      (fun m hm => hs m (hm.sub (by simp))) (fun m hm => ht m (hm.sub (by simp)))
    obtain ⟨r, hr⟩ := Node.beautifyKids_ok (o := o) (level := level) (l := d :: l)
      (fun m hm => hs m (hm.sub (fun _ h => List.mem_cons_of_mem _ h)))
      (fun m hm => ht m (hm.sub (fun _ h => List.mem_cons_of_mem _ h))) hf.stop he h3
    unfold Node.beautifyKids
    rw [sliceStr_eq h1 hp hf.start, hx, hr]
    exact ⟨_, rfl⟩
end

mutual
theorem Node.beautify_tags {o : FormatOptions} {src : Str} {level : Nat} {n : Node} {t : Str}
    (h : n.beautify o src level = .ok t) : ∀ m, Shown [n] m → m.tag ≠ none := by
  match n, h with
  | ⟨tag, start, stop, children, closed, ste, ets, attrs⟩, h =>
    intro m hm
    obtain ⟨k, hk, hm⟩ := hm.split
    simp only [List.mem_singleton] at hk
    subst hk
    unfold Node.beautify at h
    cases tag with
    | none => cases h
    | some tag =>
      rcases hm with rfl | ⟨he, hm⟩
      · simp
      · simp only [unwrap, bind, Except.bind] at h
        cases ets with
        | none => exact absurd rfl he
        | some e =>
          cases ste with
          | none => cases h
          | some s =>
            dsimp only at h
            obtain ⟨kids, hk, h⟩ := bind_ok h
            exact Node.beautifyKids_tags hk m hm
theorem Node.beautifyKids_tags {o : FormatOptions} {src : Str} {level prev stop : Nat} {l : List Node} {t : Str}
    (h : Node.beautifyKids o src level prev stop l = .ok t) : ∀ m, Shown l m → m.tag ≠ none := by
  match l, h with
  | [], _ =>
    intro m hm
    obtain ⟨k, hk, _⟩ := hm.split
    cases hk
  | [c], h =>
    unfold Node.beautifyKids at h
    obtain ⟨b, hb, h⟩ := bind_ok h
    obtain ⟨x, hx, h⟩ := bind_ok h
    exact Node.beautify_tags hx
  | c :: d :: l, h =>
    unfold Node.beautifyKids at h
    obtain ⟨b, hb, h⟩ := bind_ok h
    obtain ⟨x, hx, h⟩ := bind_ok h
    obtain ⟨r, hr, h⟩ := bind_ok h
    intro m hm
    obtain ⟨k, hk, hm⟩ := hm.split
    have key : ∀ {l : List Node}, k ∈ l → Shown l m := by
      intro l hk
      rcases hm with rfl | ⟨he, hm⟩
      · exact .root hk
      · exact Shown.under (.root hk) he hm
    rcases List.mem_cons.mp hk with hk | hk
    · exact Node.beautify_tags hx m (key (by simp [hk]))
    · exact Node.beautifyKids_tags hr m (key hk)
end

theorem beautifyRoots_iff {o : FormatOptions} {src : Str} {l : List Node}
    (hs : ∀ m, InForest l m → Sliced src m) :
    (∃ t, beautifyRoots o src l = .ok t) ↔ ∀ m, Shown l m → m.tag ≠ none := by
  induction l with
  | nil =>
    refine ⟨fun _ m hm => ?_, fun _ => ⟨_, rfl⟩⟩
    obtain ⟨k, hk, _⟩ := hm.split
    cases hk
  | cons n l ih =>
    have ih := ih (fun m hm => hs m (hm.sub (fun _ h => List.mem_cons_of_mem _ h)))
    constructor
    · rintro ⟨t, h⟩ m hm
      unfold beautifyRoots at h
      obtain ⟨x, hx, h⟩ := bind_ok h
      obtain ⟨r, hr, h⟩ := bind_ok h
      obtain ⟨k, hk, hm⟩ := hm.split
      have key : ∀ {l : List Node}, k ∈ l → Shown l m := by
        intro l hk
        rcases hm with rfl | ⟨he, hm⟩
        · exact .root hk
        · exact Shown.under (.root hk) he hm
      rcases List.mem_cons.mp hk with rfl | hk
      · exact Node.beautify_tags hx m (key List.mem_cons_self)
      · exact ih.mp ⟨r, hr⟩ m (key hk)
    · intro ht
      obtain ⟨x, hx⟩ := Node.beautify_ok (o := o) (level := 0) (n := n)
        (fun m hm => hs m (hm.sub (by simp))) (fun m hm => ht m (hm.sub (by simp)))
      obtain ⟨r, hr⟩ := ih.mpr (fun m hm => ht m (hm.sub (fun _ h => List.mem_cons_of_mem _ h)))
      unfold beautifyRoots
      rw [hx, hr]
      exact ⟨_, rfl⟩

theorem parse_sliced {u : Uni} {cs : Bool} {void : List Str} {src : Str} {roots : List Node} {n : Node}
    (hn : AsciiNext src) (h : parse u cs void src = .ok roots) (hm : InForest roots n) : Sliced src n := by
  have hd := parse_done h hm
  refine ⟨(Done.start_bd (c := parserCfg u cs src) hn hd).1, parse_stop_bd hn h hm, fun e he => ?_⟩
  refine ⟨(Done.ets_bd (c := parserCfg u cs src) hn hd he).1, ?_⟩
  cases hs : n.startTagEnd with
  | none => exact absurd hs (hd.ets e he).2.2.1
  | some s =>
    have h2 := (hd.ste s hs).2.2.1
    unfold contentEnd at h2
    rw [he] at h2
    exact ⟨s, rfl, h2.le, (Done.ste_bd (c := parserCfg u cs src) hn hd hs).1, h2⟩

theorem htmlBeautify_iff {u : Uni} {cs : Bool} {void : List Str} {o : FormatOptions} {src : Str}
    {roots : List Node} (hn : AsciiNext src) (h : parse u cs void src = .ok roots) :
    (∃ t, htmlBeautify u cs void o src = .ok t) ↔ ∀ m, Shown roots m → m.tag ≠ none := by
  rw [← beautifyRoots_iff (o := o) (src := src) (fun m hm => parse_sliced hn h hm)]
  unfold htmlBeautify
  rw [h]
  constructor
  · rintro ⟨t, h⟩
    obtain ⟨x, hx, h⟩ := bind_ok (show ((beautifyRoots o src roots).bind _ : R Str) = _ from h)
    exact ⟨x, hx⟩
  · rintro ⟨t, h⟩
    simp only [bind, Except.bind, h]
    exact ⟨_, rfl⟩

end Html
