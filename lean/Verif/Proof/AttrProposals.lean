import Verif.Proof.Proposals

/-! # Proposals of attribute names -/

namespace Html
open Spec Props

variable {x : CompCtx}

/-! ### Maps -/

theorem find_cons {β : Type} (k' : Str) (v : β) (m : HMap β) (k : Str) :
    HMap.find ((k', v) :: m) k = if k' = k then some v else HMap.find m k := by
  rw [HMap.find]

theorem find_none {β : Type} {m : HMap β} {k : Str} : m.find k = none ↔ k ∉ m.map (·.1) := by
  induction m with
  | nil => simp [HMap.find]
  | cons a m ih =>
    obtain ⟨k', v⟩ := a
    rw [find_cons]
    by_cases h : k' = k
    · simp [h]
    · rw [if_neg h, ih]
      simp [Ne.symm h]

theorem find_true {m : HMap Bool} {k : Str} (h : ∀ y ∈ m, y.2 = true) : m.find k = some true ↔ k ∈ m.map (·.1) := by
  induction m with
  | nil => simp [HMap.find]
  | cons a m ih =>
    obtain ⟨k', v⟩ := a
    have hv : v = true := h _ (List.mem_cons_self)
    rw [find_cons]
    by_cases hk : k' = k
    · simp [hk, hv]
    · rw [if_neg hk, ih fun y hy => h y (by simp [hy])]
      simp [Ne.symm hk]

/-! ### Attributes of the providers -/

/-- What the loops over attributes answer: `P` are the attributes that are gone through. -/
structure AttrLoop (x : CompCtx) (range : Range) (value : Str) (P : AttributeData → Prop) (ex : HMap Bool)
    (r : List CompItem × HMap Bool) : Prop where
  nodup : (labels r.1).Nodup
  mem : ∀ l, l ∈ labels r.1 ↔ (∃ a, P a ∧ a.name = l) ∧ ex.find l ≠ some true
  item : ∀ i ∈ r.1, ∃ a, P a ∧ i = x.attrItem range value a
  used : ∀ l, r.2.find l = some true ↔ ex.find l = some true ∨ l ∈ labels r.1
  free : ∀ l, r.2.find l = none ↔ ex.find l = none ∧ l ∉ labels r.1

theorem AttrLoop.nil {range : Range} {value : Str} {P : AttributeData → Prop} {ex : HMap Bool} (h : ∀ a, ¬ P a) :
    AttrLoop x range value P ex ([], ex) :=
  ⟨by simp [labels], fun l => by simp [labels, h], by simp, fun l => by simp [labels], fun l => by simp [labels]⟩

theorem AttrLoop.append {range : Range} {value : Str} {P Q R : AttributeData → Prop} {ex : HMap Bool}
    {r q : List CompItem × HMap Bool} (h1 : AttrLoop x range value P ex r) (h2 : AttrLoop x range value Q r.2 q)
    (hR : ∀ a, R a ↔ P a ∨ Q a) : AttrLoop x range value R ex (r.1 ++ q.1, q.2) := by
  have hl : labels (r.1 ++ q.1) = labels r.1 ++ labels q.1 := by simp [labels]
  have hm : ∀ l, l ∈ labels q.1 ↔ (∃ a, Q a ∧ a.name = l) ∧ ex.find l ≠ some true ∧ l ∉ labels r.1 := by
    intro l
    rw [h2.mem, Ne, h1.used, not_or]
  constructor
  · show (labels (r.1 ++ q.1)).Nodup
    rw [hl, List.nodup_append]
    refine ⟨h1.nodup, h2.nodup, ?_⟩
    rintro a ha b hb rfl
    exact ((hm a).1 hb).2.2 ha
  · intro l
    show l ∈ labels (r.1 ++ q.1) ↔ _
    rw [hl, List.mem_append, h1.mem, hm, h1.mem]
    constructor
    · rintro (⟨⟨a, h3, h4⟩, h5⟩ | ⟨⟨a, h3, h4⟩, h5, _⟩)
      · exact ⟨⟨a, (hR a).2 (.inl h3), h4⟩, h5⟩
      · exact ⟨⟨a, (hR a).2 (.inr h3), h4⟩, h5⟩
    · rintro ⟨⟨a, h3, h4⟩, h5⟩
      by_cases hp : ∃ a, P a ∧ a.name = l
      · exact .inl ⟨hp, h5⟩
      · rcases (hR a).1 h3 with h3 | h3
        · exact absurd ⟨a, h3, h4⟩ hp
        · exact .inr ⟨⟨a, h3, h4⟩, h5, fun h => hp h.1⟩
  · intro i hi
    rcases List.mem_append.1 hi with hi | hi
    · obtain ⟨a, h3, h4⟩ := h1.item i hi
      exact ⟨a, (hR a).2 (.inl h3), h4⟩
    · obtain ⟨a, h3, h4⟩ := h2.item i hi
      exact ⟨a, (hR a).2 (.inr h3), h4⟩
  · intro l
    show q.2.find l = some true ↔ _ ∨ l ∈ labels (r.1 ++ q.1)
    rw [hl, List.mem_append, h2.used, h1.used, or_assoc]
  · intro l
    show q.2.find l = none ↔ _ ∧ l ∉ labels (r.1 ++ q.1)
    rw [hl, List.mem_append, h2.free, h1.free, not_or, and_assoc]

theorem attrItems_loop {range : Range} {value : Str} (as : List AttributeData) (ex : HMap Bool) :
    AttrLoop x range value (· ∈ as) ex (x.attrItems range value as ex) := by
  induction as generalizing ex with
  | nil => exact .nil (by simp)
  | cons a as ih =>
    rw [CompCtx.attrItems]
    split
    · rename_i hu
      have h := ih ex
      constructor
      · exact h.nodup
      · intro l
        rw [h.mem]
        constructor
        · rintro ⟨⟨b, h1, h2⟩, h3⟩
          exact ⟨⟨b, by simp [h1], h2⟩, h3⟩
        · rintro ⟨⟨b, h1, h2⟩, h3⟩
          rcases List.mem_cons.1 h1 with rfl | h1
          · rw [h2] at hu; exact absurd hu h3
          · exact ⟨⟨b, h1, h2⟩, h3⟩
      · intro i hi
        obtain ⟨b, h1, h2⟩ := h.item i hi
        exact ⟨b, by simp [h1], h2⟩
      · exact h.used
      · exact h.free
    · rename_i hu
      have h1 : AttrLoop x range value (· = a) ex ([x.attrItem range value a], (a.name, true) :: ex) := by
        have hl : labels [x.attrItem range value a] = [a.name] := rfl
        constructor
        · rw [hl]; simp
        · intro l
          rw [hl, List.mem_singleton]
          constructor
          · rintro rfl; exact ⟨⟨a, rfl, rfl⟩, hu⟩
          · rintro ⟨⟨b, rfl, h2⟩, _⟩; exact h2.symm
        · intro i hi
          exact ⟨a, rfl, by simpa using hi⟩
        · intro l
          rw [hl, List.mem_singleton]
          show HMap.find ((a.name, true) :: ex) l = _ ↔ _
          rw [find_cons]
          by_cases hn : a.name = l
          · simp [hn]
          · rw [if_neg hn]; simp [Ne.symm hn]
        · intro l
          rw [hl, List.mem_singleton]
          show HMap.find ((a.name, true) :: ex) l = _ ↔ _
          rw [find_cons]
          by_cases hn : a.name = l
          · simp [hn]
          · rw [if_neg hn]; simp [Ne.symm hn]
      exact h1.append (ih _) (by simp)

theorem providerAttrs_loop {range : Range} {value : Str} {tag : Option Str} {ps : List Provider} {ex : HMap Bool}
    {r : List CompItem × HMap Bool} (h : x.providerAttrs range value tag ps ex = .ok r) :
    AttrLoop x range value (fun a => ∃ p ∈ ps, ∃ t, tag = some t ∧ a ∈ p.provideAttributes t x.offset) ex r := by
  induction ps generalizing ex r with
  | nil => cases h; exact .nil (by simp)
  | cons p ps ih =>
    rw [CompCtx.providerAttrs] at h
    obtain ⟨t, h1, h⟩ := bind_ok h
    obtain ⟨q, h2, h⟩ := bind_ok h
    cases h
    have ht : tag = some t := by
      cases tag with
      | none => cases h1
      | some t' => cases h1; rfl
    refine (attrItems_loop (x := x) (range := range) (value := value) (p.provideAttributes t x.offset) ex).append
      (ih h2) fun a => ?_
    constructor
    · rintro ⟨p', hp', t', ht', ha⟩
      rw [ht] at ht'; cases ht'
      rcases List.mem_cons.1 hp' with rfl | hp'
      · exact .inl ha
      · exact .inr ⟨p', hp', t, ht, ha⟩
    · rintro (ha | ⟨p', hp', t', ht', ha⟩)
      · exact ⟨p, by simp, t, ht, ha⟩
      · exact ⟨p', by simp [hp'], t', ht', ha⟩

/-! ### Attributes that begin with `data-` -/

/-- What the loops over the attributes of the document collect. -/
structure DataLoop (ex : HMap Bool) (P : Str → Prop) (m r : HMap Str) : Prop where
  nodup : (m.map (·.1)).Nodup → (r.map (·.1)).Nodup
  mem : ∀ l, l ∈ r.map (·.1) ↔ l ∈ m.map (·.1) ∨ (P l ∧ b!"data-" <+: l ∧ ex.find l = none)
  text : ∀ y ∈ r, y ∈ m ∨ (y.1 ∉ m.map (·.1) ∧ y.2 = y.1 ++ b!"=\"$1\"")

theorem DataLoop.trans {ex : HMap Bool} {P Q R : Str → Prop} {m r q : HMap Str} (h1 : DataLoop ex P m r)
    (h2 : DataLoop ex Q r q) (hR : ∀ a, R a ↔ P a ∨ Q a) : DataLoop ex R m q := by
  constructor
  · exact fun h => h2.nodup (h1.nodup h)
  · intro l
    rw [h2.mem, h1.mem, hR]
    constructor
    · rintro ((h | ⟨h, h'⟩) | ⟨h, h'⟩)
      · exact .inl h
      · exact .inr ⟨.inl h, h'⟩
      · exact .inr ⟨.inr h, h'⟩
    · rintro (h | ⟨h | h, h'⟩)
      · exact .inl (.inl h)
      · exact .inl (.inr ⟨h, h'⟩)
      · exact .inr ⟨h, h'⟩
  · intro y hy
    rcases h2.text y hy with hy | hy
    · exact h1.text y hy
    · exact .inr ⟨fun h => hy.1 ((h1.mem _).2 (.inl h)), hy.2⟩

theorem addDataNames_loop {ex : HMap Bool} (as : List Str) (m : HMap Str) :
    DataLoop ex (· ∈ as) m (addDataNames ex as m) := by
  induction as generalizing m with
  | nil => exact ⟨id, by simp [addDataNames], fun y hy => .inl hy⟩
  | cons a as ih =>
    rw [addDataNames]
    refine DataLoop.trans (P := (· = a)) ?_ (ih _) (by simp)
    split
    · rename_i h
      simp only [Bool.and_eq_true, Option.isNone_iff_eq_none, List.isPrefixOf_iff_prefix] at h
      obtain ⟨⟨h1, h2⟩, h3⟩ := h
      constructor
      · intro hn
        rw [List.map_cons, List.nodup_cons]
        exact ⟨find_none.1 h2, hn⟩
      · intro l
        simp only [List.map_cons, List.mem_cons]
        constructor
        · rintro (rfl | h)
          · exact .inr ⟨rfl, h1, h3⟩
          · exact .inl h
        · rintro (h | ⟨rfl, _⟩)
          · exact .inr h
          · exact .inl rfl
      · intro y hy
        rcases List.mem_cons.1 hy with rfl | hy
        · exact .inr ⟨find_none.1 h2, rfl⟩
        · exact .inl hy
    · rename_i h
      refine ⟨id, fun l => ⟨.inl, ?_⟩, fun y hy => .inl hy⟩
      rintro (hl | ⟨rfl, h1, h3⟩)
      · exact hl
      · apply Decidable.byContradiction
        intro hc
        apply h
        simp only [Bool.and_eq_true, Option.isNone_iff_eq_none, List.isPrefixOf_iff_prefix]
        exact ⟨⟨h1, find_none.2 hc⟩, h3⟩

mutual
theorem addData_loop {ex : HMap Bool} : ∀ (n : Node) (m : HMap Str),
    DataLoop ex (fun l => HasAttr n l ∨ ∃ k, InForest n.children k ∧ HasAttr k l) m (n.addData ex m)
  | ⟨tag, start, stop, children, e1, e2, cl, attrs⟩, m => by
    rw [Node.addData]
    exact (addDataNames_loop (attrs.map (·.1)) m).trans (addDataAll_loop children _) (fun a => Iff.rfl)
theorem addDataAll_loop {ex : HMap Bool} : ∀ (l : List Node) (m : HMap Str),
    DataLoop ex (fun a => ∃ k, InForest l k ∧ HasAttr k a) m (Node.addDataAll ex l m)
  | [], m => by
    rw [Node.addDataAll]
    refine ⟨id, fun l => ⟨.inl, ?_⟩, fun y hy => .inl hy⟩
    rintro (hl | ⟨⟨k, hk, _⟩, _⟩)
    · exact hl
    · obtain ⟨_, h, _⟩ := inForest_cases hk
      cases h
  | n :: l, m => by
    rw [Node.addDataAll]
    refine (addData_loop n m).trans (addDataAll_loop l _) fun a => ?_
    constructor
    · rintro ⟨k, hk, ha⟩
      obtain ⟨d, hd, h⟩ := inForest_cases hk
      rcases List.mem_cons.1 hd with rfl | hd
      · rcases h with rfl | h
        · exact .inl (.inl ha)
        · exact .inl (.inr ⟨k, h, ha⟩)
      · rcases h with rfl | h
        · exact .inr ⟨k, .root hd, ha⟩
        · exact .inr ⟨k, inForest_below (.root hd) h, ha⟩
    · rintro ((ha | ⟨k, hk, ha⟩) | ⟨k, hk, ha⟩)
      · exact ⟨n, .root (by simp), ha⟩
      · exact ⟨k, inForest_below (.root (by simp)) hk, ha⟩
      · exact ⟨k, inForest_sub hk (by simp +contextual), ha⟩
end

/-! ### `=` behind the name -/

theorem Step.ws_after_name {c : Cfg} {s s' : Sc} (h : Step c s s') (hs : s.state = .AfterAttributeName) :
    (s'.tokenType = .Whitespace → s'.state = .AfterAttributeName ∧ 0 < wsLen (rest c s) ∧
      s'.pos = s.pos + wsLen (rest c s)) ∧ (s'.tokenType ≠ .Whitespace → wsLen (rest c s) = 0) := by
  cases h with
  | eos h =>
    have : rest c s = [] := by unfold rest; exact List.drop_eq_nil_of_le h
    simp [fin, this, wsLen]
  | afterNameWs h hs' h0 => simp [fin, adv, hs, h0]
  | assign h hs' hw h0 => simp [fin, adv, hw]
  | afterNameTag s' h hs' hw h0 hx =>
    refine ⟨fun ht => ?_, fun _ => hw⟩
    have hw : wsLen (rest c { s with state := .WithinTag }) = 0 := hw
    cases hx <;> simp_all [fin, adv]
  | _ => simp_all

theorem equals_zero {src : Str} {i : Nat} (h : wsLen (src.drop i) = 0) :
    EqualsFollows src i ↔ src[i]? = some 61 := by
  constructor
  · rintro ⟨w, hw, r, hr⟩
    cases w with
    | nil =>
      have := congrArg (·[0]?) hr
      simpa [List.getElem?_drop] using this
    | cons b w =>
      exfalso
      have hb := isWs_of_space (hw b (by simp))
      rw [hr] at h
      simp [wsLen, hb] at h
  · intro h1
    refine ⟨[], by simp [Spaces], src.drop (i + 1), ?_⟩
    have := List.getElem?_eq_some_iff.1 h1
    obtain ⟨h2, h3⟩ := this
    rw [List.drop_eq_getElem_cons h2, h3]; rfl

theorem equals_ws {src : Str} {i : Nat} : EqualsFollows src (i + wsLen (src.drop i)) ↔ EqualsFollows src i := by
  have key : ∀ (r : Str), (∃ w, Spaces w ∧ ∃ q, r.drop (wsLen r) = (w ++ b!"=") ++ q) ↔
      (∃ w, Spaces w ∧ ∃ q, r = (w ++ b!"=") ++ q) := by
    intro r
    induction r with
    | nil => simp [wsLen]
    | cons b r ih =>
      by_cases hb : isWs b = true
      · have h1 : wsLen (b :: r) = wsLen r + 1 := by simp [wsLen, hb, Nat.add_comm]
        rw [h1, List.drop_succ_cons, ih]
        constructor
        · rintro ⟨w, hw, q, h⟩
          refine ⟨b :: w, ?_, q, by rw [h]; rfl⟩
          intro y hy
          rcases List.mem_cons.1 hy with rfl | hy
          · exact isWs_space hb
          · exact hw y hy
        · rintro ⟨w, hw, q, h⟩
          cases w with
          | nil =>
            simp only [List.nil_append, List.cons_append, List.cons.injEq] at h
            rw [h.1] at hb; cases hb
          | cons a w =>
            simp only [List.cons_append, List.cons.injEq] at h
            exact ⟨w, fun y hy => hw y (by simp [hy]), q, h.2⟩
      · have h1 : wsLen (b :: r) = 0 := by simp [wsLen, hb]
        rw [h1]; rfl
  unfold EqualsFollows At
  rw [← List.drop_drop]
  exact key (src.drop i)

theorem followedBy_assign {c : Cfg} {f : Nat} {s : Sc} {b : Bool} (hs : s.state = .AfterAttributeName)
    (h : followedBy c .DelimiterAssign f s = .ok b) : b = true ↔ EqualsFollows c.src s.pos := by
  induction f generalizing s with
  | zero => cases h
  | succ f ih =>
    rw [followedBy] at h
    obtain ⟨s1, h1, h⟩ := bind_ok h
    have hst := scan_step h1
    obtain ⟨g1, g2⟩ := hst.ws_after_name hs
    split at h
    · rename_i hw
      obtain ⟨g3, g4, g5⟩ := g1 hw
      rw [ih g3 h, g5]
      exact equals_ws
    · rename_i hw
      cases h
      rw [decide_eq_true_eq, (hst.assign_iff hs).1]
      exact (equals_zero (g2 hw)).symm

/-! ### All proposals -/

theorem active_iff {e : CompEnv} {p : Provider} : p ∈ e.active ↔ p ∈ e.providers ∧ Enabled e p := by
  unfold CompEnv.active Enabled
  rw [List.mem_filter, Bool.and_eq_true]
  refine and_congr_right fun _ => and_congr_right fun _ => ?_
  cases hs : e.settings with
  | none => simp
  | some c =>
    simp only [Option.some.injEq, forall_eq']
    cases hf : c.provider.find p.id with
    | none => simp
    | some b => cases b <;> simp

theorem offers_iff {x : CompCtx} {tag : Option Str} {a : AttributeData} :
    (∃ p ∈ x.env.active, ∃ t, tag = some t ∧ a ∈ p.provideAttributes t x.offset) ↔ Offers x.env tag x.offset a := by
  unfold Offers
  constructor
  · rintro ⟨p, hp, h⟩
    obtain ⟨h1, h2⟩ := active_iff.1 hp
    exact ⟨p, h1, h2, h⟩
  · rintro ⟨p, h1, h2, h⟩
    exact ⟨p, active_iff.2 ⟨h1, h2⟩, h⟩

theorem assign_eq (e : CompEnv) : e.quotes.assign = assignText e.settings := by
  unfold CompEnv.quotes assignText
  cases e.settings with
  | none => rfl
  | some c => cases h : c.quotes <;> simp [Quotes.assign, h]

theorem assign_ne (q : Quotes) : q.assign ≠ [] := by cases q <;> simp [Quotes.assign]

theorem attrNames_spec {start stop : Nat} {r : List CompItem} {typed : Str → Prop}
    (h : x.attrNames x.node.tag start stop = .ok r)
    (ht : ∀ l, typed l ∨ ¬ HasAttr x.node l ↔
      l = bytesIn x.doc.text (min start stop) (max start stop) ∨ ¬ HasAttr x.node l)
    (ht' : ∀ l, b!"data-" <+: l → (typed l ↔ l = bytesIn x.doc.text (min start stop) (max start stop))) :
    ∃ named data, r = named ++ data ∧ NameProposals x.env x.roots x.node x.offset
      (x.replaceRange start (replaceEnd x.doc.text (stop - x.offset) x.offset)) typed
      (EqualsFollows x.doc.text stop) named data := by
  unfold CompCtx.attrNames at h
  simp only at h
  generalize x.replaceRange start (replaceEnd x.doc.text (stop - x.offset) x.offset) = range at h ⊢
  obtain ⟨cur, h1, h⟩ := bind_ok h
  obtain ⟨b, h2, h⟩ := bind_ok h
  obtain ⟨q, h3, h⟩ := bind_ok h
  cases h
  have hcur : cur = bytesIn x.doc.text (min start stop) (max start stop) := (sliceStr_ok h1).2.2.2.2
  rw [← hcur] at ht ht'
  have hb : b = true ↔ EqualsFollows x.doc.text stop := followedBy_assign rfl h2
  have hl := providerAttrs_loop h3
  generalize hex : ((cur, false) :: x.node.attributes.map (fun a => (a.1, true)) : HMap Bool) = ex at hl
  have hkeys : (x.node.attributes.map (fun a => (a.1, true))).map (·.1) = x.node.attributes.map (·.1) := by simp
  have used : ∀ l, HMap.find ex l = some true ↔ l ≠ cur ∧ HasAttr x.node l := by
    intro l
    rw [← hex, find_cons]
    by_cases hc : cur = l
    · simp [hc]
    · rw [if_neg hc, find_true (by simp), hkeys]
      simp [HasAttr, Ne.symm hc]
  have free : ∀ l, HMap.find ex l = none ↔ l ≠ cur ∧ ¬ HasAttr x.node l := by
    intro l
    rw [← hex, find_cons]
    by_cases hc : cur = l
    · simp [hc]
    · rw [if_neg hc, find_none, hkeys]
      simp [HasAttr, Ne.symm hc]
  have hd := addDataAll_loop (ex := q.2) x.roots [(b!"data-", b!"data-$1=\"$2\"")]
  have hlab : labels (x.dataItems range q.2) =
      (Node.addDataAll q.2 x.roots [(b!"data-", b!"data-$1=\"$2\"")]).map (·.1) := by
    simp [labels, CompCtx.dataItems]
  refine ⟨q.1, x.dataItems range q.2, rfl, hl.nodup, fun l => ?_, fun i hi => ?_, ?_, fun l => ?_, fun i hi => ?_⟩
  · rw [hl.mem]
    simp only [offers_iff]
    refine and_congr_right fun _ => ?_
    rw [Ne, used, ht]
    constructor
    · intro hx
      by_cases hc : l = cur
      · exact .inl hc
      · exact .inr fun hh => hx ⟨hc, hh⟩
    · rintro (hx | hx) ⟨h4, h5⟩
      · exact h4 hx
      · exact hx h5
  · obtain ⟨a, ha, rfl⟩ := hl.item i hi
    have hval : (if b = true then ([] : Str) else x.env.quotes.assign) = [] ↔ b = true := by
      cases b <;> simp [assign_ne]
    refine ⟨a, if (!(a.valueSet == some b!"v" || (if b = true then ([] : Str) else x.env.quotes.assign).isEmpty)) = true
        then (if b = true then ([] : Str) else x.env.quotes.assign) else [], offers_iff.1 ha, rfl, ?_, ?_, ?_⟩
    · unfold CompCtx.attrItem
      generalize (if b = true then ([] : Str) else x.env.quotes.assign) = v
      cases hw : !(a.valueSet == some b!"v" || v.isEmpty) <;> simp [hw]
    · rintro (hv | hv)
      · simp [hv]
      · rw [← hb] at hv; simp [hv]
    · intro hv
      rw [not_or, ← hb] at hv
      obtain ⟨hv1, hv2⟩ := hv
      rw [if_pos (by simp [hv1, hv2, assign_ne]), if_neg hv2, assign_eq]
  · rw [hlab]; exact hd.nodup (by simp)
  · rw [hlab, hd.mem, hl.free, free]
    simp only [List.map_cons, List.map_nil, List.mem_singleton]
    refine or_congr_right ?_
    constructor
    · rintro ⟨h4, h5, ⟨h6, h7⟩, h8⟩
      exact ⟨h5, h4, h7, fun h => h6 ((ht' l h5).1 h), h8⟩
    · rintro ⟨h5, h4, h7, h6, h8⟩
      exact ⟨h4, h5, ⟨fun h => h6 ((ht' l h5).2 h), h7⟩, h8⟩
  · unfold CompCtx.dataItems at hi
    obtain ⟨y, hy, rfl⟩ := List.mem_map.1 hi
    have hnd := hd.nodup (by simp)
    simp only [Option.some.injEq, TextEdit.mk.injEq, true_and]
    split
    · rename_i hx
      rcases hd.text y hy with hm | hm
      · rw [List.mem_singleton] at hm
        rw [hm]
      · exact absurd (by simp [hx]) hm.1
    · rename_i hx
      rcases hd.text y hy with hm | hm
      · rw [List.mem_singleton] at hm
        rw [hm] at hx; exact absurd rfl hx
      · exact hm.2

/-! ### The cursor -/

theorem replaceEnd_bounds (src : Str) (f i : Nat) : i ≤ replaceEnd src f i ∧ replaceEnd src f i ≤ i + f := by
  induction f generalizing i with
  | zero => simp [replaceEnd]
  | succ f ih =>
    rw [replaceEnd]
    split
    · have := ih (i + 1); omega
    · omega

theorem replaceEnd_full {src : Str} {f i : Nat} (h : ∀ k, i ≤ k → k < i + f → ∃ b, src[k]? = some b ∧ b < 128 ∧ b ≠ 60)
    (hb : isBoundary src (i + f) = true) : replaceEnd src f i = i + f := by
  induction f generalizing i with
  | zero => rfl
  | succ f ih =>
    rw [replaceEnd]
    obtain ⟨b, h1, h2, h3⟩ := h i (Nat.le_refl _) (by omega)
    have hb1 : isBoundary src (i + 1) = true := by
      cases f with
      | zero => exact hb
      | succ f =>
        obtain ⟨b', g1, g2, _⟩ := h (i + 1) (by omega) (by omega)
        exact isBoundary_of_get g1 (by simp [isCont]; omega)
    have hg : getStr src i (i + 1) = some [b] :=
      getStr_one.2 ⟨h1, isBoundary_of_get h1 (by simp [isCont]; omega), hb1⟩
    rw [hg, if_pos (by simp [h3]), ih (fun k h4 h5 => h k (by omega) (by omega)) (by rw [← hb]; congr 1; omega)]
    omega

variable {void : List Str} {u : Uni} {cs : Bool} {src : Str} {roots : List Node} {ts : List Tok}
variable {e : CompEnv} {d : TextDoc} {position : Pos} {o : Nat}

theorem Doc.complete_in_tag (h : Doc e.uni e.caseSensitive void d.text roots ts) {pre post : List Tok} {t : Tok}
    (hts : ts = pre ++ t :: post) (hb : lastBracket (pre.map Tok.type) = some .StartTagOpen)
    (hnb : isBracket t.type = false) (h1 : t.offset < o) (h2 : o ≤ t.stop) (ho : d.offsetAt position = o)
    {r : List CompItem} (hr : doComplete e d position roots = .ok r) :
    ∃ m ps p t0 mid s q, InForest roots m ∧ findNodeBefore roots o = some (m, ps) ∧ m.start < t.offset ∧
      t.stop ≤ m.startTagEnd.getD m.stop ∧ pre = p ++ t0 :: mid ∧ t0.type = .StartTagOpen ∧ t0.offset = m.start ∧
      (∀ y ∈ mid, isBracket y.type = false) ∧
      (lastNonWs (pre.map Tok.type) ≠ some .StartTagOpen → m.tag = lastText .StartTag d.text mid none) ∧
      s.tok = t ∧ s.tokenType ≠ .EOS ∧ Stream (e.cfg d true) s post ∧
      CompCtx.onToken ⟨e, d, position, o, m, ps, roots⟩ (lastText .StartTag d.text mid none)
        ((lastText .AttributeName d.text mid (some [])).getD []) s = .ok q ∧ r = q.getD [] := by
  obtain ⟨m, ps, p, t0, mid, g1, g2, g3, g4, g5, g6, g7, g8, g9⟩ := h.in_tag hts hb hnb h1 h2
  obtain ⟨p', l, t0', l', s, q, c1, c2, c3, c4, c5, c6, c7, c8, c9⟩ := h.complete_at g1 hts h1 h2 ho hr
  have hs1 : ts = p ++ t0 :: (mid ++ t :: post) := by rw [hts, g3]; simp
  have hs2 : ts = p' ++ t0' :: l' := by rw [hts, c1, List.append_assoc, c2]
  obtain ⟨e1, e2, e3⟩ := pos_unique h.contiguous hs1 hs2 (by omega)
    (h.nonempty (by rw [hs1]; simp) (.inl g4)) (h.nonempty (by rw [hs2]; simp) (.inl c3))
  subst e1 e2
  have hl : l = t0 :: mid := List.append_cancel_left (c1.symm.trans g3)
  subst hl
  refine ⟨m, ps, p, t0, mid, s, q, g2, g1, g6, g7, g3, g4, g5, g8, g9, c5, c6, c7, ?_, c9⟩
  rw [lastText, if_neg (by simp [g4]), lastText, if_neg (by simp [g4])] at c8
  exact c8

/-- What the tokens say about the state behind a token. -/
theorem Doc.ginv (h : Doc u cs void src roots ts) {pre post : List Tok} {t : Tok} (hts : ts = pre ++ t :: post) :
    ∃ s, s.tok = t ∧ GInv (parserCfg u cs src) (pre.map Tok.type ++ [t.type]) s := by
  obtain ⟨s2, h1, _⟩ := tokens_run h.tokens
  rw [hts, show pre ++ t :: post = (pre ++ [t]) ++ post by simp] at h1
  obtain ⟨s, h2, _⟩ := h1.split
  have h3 := h2.ginv (hist := []) (by simp [GInv, Sc.new, lastBracket])
  refine ⟨s, ?_, by simpa using h3⟩
  obtain ⟨s', _, h4⟩ := h2.split
  cases h4 with
  | cons hs hne hr => cases hr; rfl

/-- White space behind the name of a start tag. -/
theorem Doc.ws_state (h : Doc u cs void src roots ts) {pre post : List Tok} {t : Tok} (hts : ts = pre ++ t :: post)
    (hk : t.type = .Whitespace) (hb : lastBracket (pre.map Tok.type) = some .StartTagOpen)
    (hl : lastNonWs (pre.map Tok.type) ≠ some .StartTagOpen) :
    t.state = .WithinTag ∨ t.state = .AfterAttributeName := by
  obtain ⟨s, rfl, hg⟩ := h.ginv hts
  have hk : s.tokenType = .Whitespace := hk
  show s.state = _ ∨ s.state = _
  unfold GInv at hg
  cases hst : s.state <;> rw [hst] at hg <;>
    simp_all [Sc.tok, lastNonWs_append, lastBracket_append, isBracket]

theorem Doc.node_attrs (h : Doc u cs void src roots ts) {n : Node} (hn : InForest roots n) {l : Str}
    (hl : HasAttr n l) : AttributeName l := by
  obtain ⟨a, ha, rfl⟩ := List.mem_map.1 hl
  exact ((parse_done h.parse hn).attrs a ha).1

theorem Run.named {c : Cfg} {s s2 : Sc} {ts : List Tok} (h : Run c s ts s2) {hist : List TT}
    (hg : lastNonWs hist = some .StartTagOpen → Nameless c s ∨ s.state.inStart = false) {pre post : List Tok} {t : Tok}
    (ht : ts = pre ++ t :: post) (hk : t.type = .AttributeName) :
    lastNonWs (hist ++ pre.map Tok.type) ≠ some .StartTagOpen := by
  induction h generalizing hist pre with
  | nil s => simp at ht
  | @cons s s1 s2 ts h hne hr ih =>
    have f := (scan_step h).startFacts hne
    cases pre with
    | nil =>
      simp at ht
      rw [← ht.1] at hk
      have hk : s1.tokenType = .AttributeName := hk
      have h1 : s1.state.inStart = true := by rw [(scan_step h).name_state hk]; rfl
      have h2 := (f.stay h1 (by rw [hk]; decide)).1
      intro h3
      rw [List.map_nil, List.append_nil] at h3
      rcases hg h3 with h4 | h4
      · exact (f.nameless h1 h4 (by rw [hk]; decide)).2 hk
      · rw [h4] at h2; cases h2
    | cons p pre =>
      simp at ht
      have := ih (hist := hist ++ [s1.tokenType]) ?_ ht.2
      · rw [← ht.1]
        simpa [Sc.tok] using this
      · rw [lastNonWs_append]
        intro h3
        cases h1 : s1.state.inStart
        · exact .inr rfl
        left
        split at h3
        · rename_i hw
          have h2 := (f.stay h1 (by rw [hw]; decide)).1
          rcases hg h3 with h4 | h4
          · exact (f.nameless h1 h4 (by rw [hw]; decide)).1
          · rw [h4] at h2; cases h2
        · exact .inl (f.enter (by simpa using h3)).2.1

/-- In front of an attribute is the name of the element. -/
theorem Doc.named (h : Doc u cs void src roots ts) {pre post : List Tok} {t : Tok} (hts : ts = pre ++ t :: post)
    (hk : t.type = .AttributeName) : lastNonWs (pre.map Tok.type) ≠ some .StartTagOpen := by
  obtain ⟨s2, h1, _⟩ := tokens_run h.tokens
  simpa using h1.named (hist := []) (by simp [lastNonWs]) hts hk

end Html
