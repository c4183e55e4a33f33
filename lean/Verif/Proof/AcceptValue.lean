import Verif.Spec.AcceptValue
import Verif.Proof.Retag
import Verif.Proof.Rename
import Verif.Proof.ValueProposals

/-! # The tokens of a start tag that is written legally -/

namespace Html
open Spec Props

variable {u : Uni} {cs : Bool} {void : List Str} {src : Str} {roots : List Node} {ts : List Tok}

/-! ### Where attributes come from -/

theorem modifyLast_eq {α : Type} (f : α → α) (l : List α) (h : l ≠ []) :
    ∃ i x, l = i ++ [x] ∧ modifyLast f l = i ++ [f x] := by
  induction l with
  | nil => exact absurd rfl h
  | cons a l ih =>
    cases l with
    | nil => exact ⟨[], a, rfl, rfl⟩
    | cons b l =>
      obtain ⟨i, x, h1, h2⟩ := ih (by simp)
      exact ⟨a :: i, x, by rw [h1]; rfl, by rw [modifyLast, h2]; rfl; simp⟩

/-- The value `v` of the attribute `k` at `o` is that of a token in `l`. -/
def HasValue (src : Str) (l : List Tok) (k v : Str) (o : Nat) : Prop :=
  ∃ a t b y, l = a ++ t :: b ∧ t.type = .AttributeValue ∧ text src t = v ∧ LastName a y ∧ y.offset = o ∧ text src y = k

theorem HasValue.mono {l : List Tok} {k v : Str} {o : Nat} (h : HasValue src l k v o) (x : Tok) :
    HasValue src (l ++ [x]) k v o := by
  obtain ⟨a, t, b, y, h1, h2⟩ := h
  exact ⟨a, t, b ++ [x], y, by rw [h1]; simp, h2⟩

structure ValueInv (src : Str) (l : List Tok) (r : List TagInfo × Option Str) : Prop where
  noName : r.2 = none → ∀ i ∈ r.1, i.attributes = []
  last : ∀ i, r.1.getLast? = some i → ∀ a, attrGet i.attributes (r.2.getD []) = some a →
    ∃ y, LastName l y ∧ y.offset = a.offset ∧ text src y = r.2.getD []
  vals : ∀ i ∈ r.1, ∀ k v o, (k, ⟨some v, o⟩) ∈ i.attributes → v ≠ [] → HasValue src l k v o

theorem lastName_skip {l : List Tok} {y x : Tok} (h : LastName l y) (hx : x.type ≠ .AttributeName) : LastName (l ++ [x]) y := by
  obtain ⟨p, mid, h1, h2, h3⟩ := h
  refine ⟨p, mid ++ [x], by rw [h1]; simp, h2, fun z hz => ?_⟩
  rcases List.mem_append.1 hz with hz | hz
  · exact h3 z hz
  · rw [List.mem_singleton] at hz; rw [hz]; exact hx

theorem ValueInv.setValue {l : List Tok} {r : List TagInfo × Option Str} (h : ValueInv src l r) {x : Tok}
    (hx : x.type ≠ .AttributeName) {v : Str} (hv : v ≠ [] → x.type = .AttributeValue ∧ text src x = v) :
    ValueInv src (l ++ [x]) (modifyLast (Spec.setValue (r.2.getD []) v) r.1, r.2) := by
  obtain ⟨l1, q⟩ := r
  by_cases hne : l1 = []
  · subst hne
    exact ⟨by simp [modifyLast], by simp [modifyLast], by simp [modifyLast]⟩
  · obtain ⟨i, j, e1, e2⟩ := modifyLast_eq (Spec.setValue (q.getD []) v) l1 hne
    dsimp only
    rw [e2]
    have hl : l1.getLast? = some j := by rw [e1]; simp
    cases hg : attrGet j.attributes (q.getD []) with
    | none =>
      have e3 : Spec.setValue (q.getD []) v j = j := by unfold Spec.setValue; rw [hg]
      rw [e3, ← e1]
      refine ⟨h.noName, fun i' hi a ha => ?_, fun i' hi k w o hm hw => (h.vals i' hi k w o hm hw).mono x⟩
      obtain ⟨y, y1, y2⟩ := h.last i' hi a ha
      exact ⟨y, lastName_skip y1 hx, y2⟩
    | some a =>
      obtain ⟨y, y1, y2, y3⟩ := h.last j hl a hg
      have e3 : Spec.setValue (q.getD []) v j =
          { j with attributes := attrInsert j.attributes (q.getD []) { a with value := some v } } := by
        unfold Spec.setValue; rw [hg]
      rw [e3]
      refine ⟨fun hq i' hi => ?_, fun i' hi a' ha => ?_, fun i' hi k w o hm hw => ?_⟩
      · have := h.noName hq j (by rw [e1]; simp)
        rw [this] at hg
        cases hg
      · simp only [List.getLast?_append, List.getLast?_singleton, Option.some_or, Option.some.injEq] at hi
        subst hi
        dsimp only at ha
        rw [attrGet_insert] at ha
        cases ha
        exact ⟨y, lastName_skip y1 hx, y2, y3⟩
      · rcases List.mem_append.1 hi with hi | hi
        · exact (h.vals i' (by rw [e1]; simp [hi]) k w o hm hw).mono x
        · rw [List.mem_singleton] at hi
          subst hi
          rcases mem_attrInsert hm with hm | hm
          · cases hm
            obtain ⟨t1, t2⟩ := hv hw
            exact ⟨l, x, [], y, rfl, t1, t2, y1, y2, y3⟩
          · exact (h.vals j (by rw [e1]; simp) k w o hm hw).mono x

theorem ValueInv.step {l : List Tok} {r : List TagInfo × Option Str} (h : ValueInv src l r) (x : Tok) :
    ValueInv src (l ++ [x]) (readTag src r x) := by
  have idle : x.type ≠ .AttributeName → ValueInv src (l ++ [x]) r := fun hx =>
    ⟨h.noName, fun i hi a ha => by
      obtain ⟨y, y1, y2⟩ := h.last i hi a ha
      exact ⟨y, lastName_skip y1 hx, y2⟩, fun i' hi k w o hm hw => (h.vals i' hi k w o hm hw).mono x⟩
  unfold readTag
  split
  · rename_i hk
    have hi := idle (by rw [hk]; simp)
    refine ⟨fun hq i hi' => ?_, fun i hi' a ha => ?_, fun i hi' k w o hm hw => ?_⟩
    · rcases List.mem_append.1 hi' with h1 | h1
      · exact h.noName hq i h1
      · rw [List.mem_singleton] at h1; rw [h1]
    · simp only [List.getLast?_append, List.getLast?_singleton, Option.some_or, Option.some.injEq] at hi'
      subst hi'
      cases ha
    · rcases List.mem_append.1 hi' with h1 | h1
      · exact hi.vals i h1 k w o hm hw
      · rw [List.mem_singleton] at h1
        subst h1
        cases hm
  · rename_i hk
    have hi := idle (by rw [hk]; simp)
    obtain ⟨l1, q⟩ := r
    by_cases hne : l1 = []
    · subst hne
      exact ⟨by simp [modifyLast], by simp [modifyLast], by simp [modifyLast]⟩
    · obtain ⟨i, j, e1, e2⟩ := modifyLast_eq (fun i => { i with tag := some (text src x) }) l1 hne
      dsimp only
      rw [e2]
      refine ⟨fun hq i' hi' => ?_, fun i' hi' a ha => ?_, fun i' hi' k w o hm hw => ?_⟩
      · rcases List.mem_append.1 hi' with h1 | h1
        · exact h.noName hq i' (by rw [e1]; simp [h1])
        · rw [List.mem_singleton] at h1
          subst h1
          exact h.noName hq j (by rw [e1]; simp)
      · simp only [List.getLast?_append, List.getLast?_singleton, Option.some_or, Option.some.injEq] at hi'
        subst hi'
        exact hi.last j (by rw [e1]; simp) a ha
      · rcases List.mem_append.1 hi' with h1 | h1
        · exact hi.vals i' (by rw [e1]; simp [h1]) k w o hm hw
        · rw [List.mem_singleton] at h1
          subst h1
          exact hi.vals j (by rw [e1]; simp) k w o hm hw
  · rename_i hk
    have hn : LastName (l ++ [x]) x := ⟨l, [], rfl, hk, by simp⟩
    obtain ⟨l1, q⟩ := r
    by_cases hne : l1 = []
    · subst hne
      exact ⟨by simp [modifyLast], by simp [modifyLast], by simp [modifyLast]⟩
    · obtain ⟨i, j, e1, e2⟩ := modifyLast_eq (fun i : TagInfo => { i with
          attributes := attrInsert i.attributes (text src x) ⟨none, x.offset⟩ }) l1 hne
      dsimp only
      rw [e2]
      refine ⟨fun hq => (by cases hq), fun i' hi' a ha => ?_, fun i' hi' k w o hm hw => ?_⟩
      · simp only [List.getLast?_append, List.getLast?_singleton, Option.some_or, Option.some.injEq] at hi'
        subst hi'
        simp only [Option.getD_some, attrGet_insert, Option.some.injEq] at ha
        subst ha
        exact ⟨x, hn, rfl, rfl⟩
      · rcases List.mem_append.1 hi' with h1 | h1
        · exact (h.vals i' (by rw [e1]; simp [h1]) k w o hm hw).mono x
        · rw [List.mem_singleton] at h1
          subst h1
          rcases mem_attrInsert hm with hm | hm
          · cases hm
          · exact (h.vals j (by rw [e1]; simp) k w o hm hw).mono x
  · rename_i hk
    exact h.setValue (by rw [hk]; simp) fun hv => absurd rfl hv
  · rename_i hk
    exact h.setValue (by rw [hk]; simp) fun _ => ⟨hk, rfl⟩
  · rename_i hk _ _
    exact idle hk

theorem valueInv_foldl (l l' : List Tok) {r : List TagInfo × Option Str} (h : ValueInv src l r) :
    ValueInv src (l ++ l') (l'.foldl (readTag src) r) := by
  induction l' generalizing l r with
  | nil => simpa using h
  | cons x l' ih =>
    have := ih _ (h.step x)
    simpa using this

theorem infoNode_infos {l : List Node} {n : Node} (h : n ∈ l) {x : TagInfo} (hx : x ∈ infoNode n) : x ∈ infos l := by
  induction l with
  | nil => cases h
  | cons m l ih =>
    rw [infos, List.mem_append]
    rcases List.mem_cons.1 h with rfl | h
    · exact .inl hx
    · exact .inr (ih h)

theorem infos_deep {l : List Node} {n : Node} (h : InForest l n) : ∀ x ∈ infoNode n, x ∈ infos l := by
  induction h with
  | root h => exact fun x hx => infoNode_infos h hx
  | @child m n hm hc ih =>
    refine fun x hx => ih x ?_
    rw [infoNode_eq]
    exact List.mem_cons_of_mem _ (infoNode_infos hc hx)

/-- The value of an attribute is a token. -/
theorem Doc.has_value (h : Doc u cs void src roots ts) {n : Node} (hn : InForest roots n) {k v : Str} {o : Nat}
    (ha : (k, ⟨some v, o⟩) ∈ n.attributes) (hv : v ≠ []) : HasValue src ts k v o := by
  obtain ⟨ts', h1, h2⟩ := C18_start_tags_exact u cs void src roots h.parse
  rw [h.tokens] at h1; cases h1
  have hi := valueInv_foldl (src := src) [] ts (r := ([], none)) ⟨by simp, by simp, by simp⟩
  rw [List.nil_append] at hi
  refine hi.vals n.info ?_ k v o ha hv
  rw [← h2]
  exact infos_deep hn _ (by rw [infoNode_eq]; exact List.mem_cons_self)

/-- No element starts in the start tag of another one. -/
theorem Doc.no_start_inside (h : Doc u cs void src roots ts) {n m : Node} (hn : InForest roots n) (hm : InForest roots m)
    (hlt : n.start < m.start) : n.startTagEnd.getD n.stop ≤ m.start := by
  have hc := h.contiguous
  obtain ⟨p', t', q', e1, k1, o1⟩ := h.node_tok hm
  have hm' : t' ∈ ts := by rw [e1]; simp
  have n' := h.nonempty hm' (.inl k1)
  have seg : ∀ {x}, StartSeg ts n.start x → x.stop ≤ m.start := by
    rintro x ⟨pre, t, mid, post, h1, h2, h3, h4, h5⟩
    have := before_of_lt hc h1 hm' (by omega) (by rintro rfl; omega)
    rcases List.mem_append.1 this with hq | hq
    · have := h4 _ hq; rw [k1] at this; cases this
    · rcases List.mem_cons.1 hq with rfl | hq
      · rw [k1] at h5; simp at h5
      · rw [h1] at hc
        obtain ⟨_, _, hc, _⟩ := contiguous_split hc
        obtain ⟨_, _, hc⟩ := hc
        obtain ⟨_, _, hc, _⟩ := contiguous_split hc
        obtain ⟨_, _, hc⟩ := hc
        have := contiguous_ge hc hq
        omega
  have ht := parse_tags h.parse h.tokens hn
  cases hs : n.startTagEnd with
  | none =>
    rcases ht.cut hs with ⟨x, hx, _, _, he⟩ | ⟨⟨pre, t, mid, h1, h2, h3, h4⟩, _⟩
    · have := seg hx
      simp only [Option.getD_none]; omega
    · have := before_of_lt hc h1 hm' (by omega) (by rintro rfl; omega)
      have := h4 _ this
      rw [k1] at this; cases this
  | some e =>
    obtain ⟨x, hx, _, he, _⟩ := ht.full e hs
    have := seg hx
    simp only [Option.getD_some]; omega

theorem Doc.same_tag (h : Doc u cs void src roots ts) {n m : Node} (hn : InForest roots n) (hm : InForest roots m) {x : Nat}
    (h1 : n.start < x) (h2 : x ≤ n.startTagEnd.getD n.stop) (h3 : m.start < x) (h4 : x ≤ m.startTagEnd.getD m.stop) :
    n = m := by
  refine start_unique h.parse hn hm ?_
  rcases Nat.lt_trichotomy n.start m.start with hl | hl | hl
  · have := h.no_start_inside hn hm hl; omega
  · exact hl
  · have := h.no_start_inside hm hn hl; omega

theorem text_len {t : Tok} (h : t.stop ≤ src.length) : (text src t).length = t.stop - t.offset := by
  unfold text; simp; omega

theorem text_at {t : Tok} (h : t.offset ≤ t.stop) (h2 : t.stop ≤ src.length) : At src t.offset (text src t) := by
  refine ⟨src.drop t.stop, ?_⟩
  unfold text
  rw [List.drop_take]
  have := List.take_append_drop (t.stop - t.offset) (src.drop t.offset)
  rw [List.drop_drop, show t.offset + (t.stop - t.offset) = t.stop by omega] at this
  exact this.symm

/-- A value directly behind `=` directly behind the name: the tokens. -/
theorem Doc.value_toks (h : Doc u cs void src roots ts) {k v : Str} {o : Nat} (hv : HasValue src ts k v o)
    (hd : src[o + k.length]? = some 61) :
    ∃ p y e t post, ts = p ++ y :: e :: t :: post ∧ y.type = .AttributeName ∧ y.offset = o ∧ text src y = k ∧
      e.type = .DelimiterAssign ∧ e.offset = o + k.length ∧ e.stop = o + k.length + 1 ∧ t.type = .AttributeValue ∧
      t.offset = o + k.length + 1 ∧ t.stop = o + k.length + 1 + v.length ∧ text src t = v := by
  obtain ⟨a, t, post, y, h1, h2, h3, ⟨p, mid, h4, h5, h6⟩, h7, h8⟩ := hv
  have hc := h.contiguous
  have hlen := (contiguous_le hc).2
  have hg := h.grammar h1
  rw [h2] at hg
  have hg1 := hg.1
  rw [List.getLast?_map, h4] at hg1
  have hyts : y ∈ ts := by rw [h1, h4]; simp
  have hyl := text_len (hlen y hyts)
  have hyn := h.nonempty hyts (.inr (.inr h5))
  rw [h8] at hyl
  rcases List.eq_nil_or_concat mid with rfl | ⟨mid', e, rfl⟩
  · simp [h5] at hg1
  · simp only [List.concat_eq_append] at *
    have he : e.type = .DelimiterAssign := by
      have : (p ++ y :: (mid' ++ [e])).getLast? = some e := by
        rw [show p ++ y :: (mid' ++ [e]) = (p ++ y :: mid') ++ [e] by simp, List.getLast?_append]; rfl
      rw [this] at hg1
      simpa using hg1
    have hts : ts = p ++ y :: mid' ++ e :: (t :: post) := by rw [h1, h4]; simp
    have hg2 := h.grammar hts
    rw [he] at hg2
    have hg2 := hg2.1
    rw [hts] at hc
    have hmid : mid' = [] := by
      cases mid' with
      | nil => rfl
      | cons w m =>
        exfalso
        have hall : ∀ z ∈ w :: m, z.type = .Whitespace := by
          intro z hz
          refine Classical.byContradiction fun hnz => ?_
          have hmem : ∀ q ∈ (w :: m).map Tok.type, q ≠ .AttributeName := by
            intro q hq
            obtain ⟨x, hx, rfl⟩ := List.mem_map.1 hq
            exact h6 x (by simp at hx ⊢; rcases hx with hx | hx <;> simp [hx])
          have hf : ((w :: m).map Tok.type).filter (· ≠ .Whitespace) ≠ [] := by
            intro hf
            rw [List.filter_eq_nil_iff] at hf
            have := hf _ (List.mem_map_of_mem hz)
            simp at this
            exact hnz this
          unfold lastNonWs at hg2
          rw [show p ++ y :: w :: m = (p ++ [y]) ++ (w :: m) by simp, List.map_append, List.filter_append,
            List.getLast?_append] at hg2
          cases hl : (((w :: m).map Tok.type).filter (· ≠ .Whitespace)).getLast? with
          | none => exact hf (List.getLast?_eq_none_iff.1 hl)
          | some q =>
            rw [hl] at hg2
            simp only [Option.some_or, Option.some.injEq] at hg2
            have := List.mem_of_getLast? hl
            exact hmem q (List.mem_filter.1 this).1 hg2
        have hw := hall w (by simp)
        have hwts : w ∈ ts := by rw [hts]; simp
        have hok := h.textOK hwts
        unfold TextOK at hok
        rw [hw] at hok
        obtain ⟨hne, hsp⟩ := hok
        obtain ⟨_, _, hc, _⟩ := contiguous_split (by simpa using hc : Contiguous 0 (p ++ y :: w :: (m ++ e :: t :: post)) _)
        obtain ⟨_, _, hc⟩ := hc
        obtain ⟨hc1, hc2, _⟩ := hc
        obtain ⟨r, hr⟩ := text_at hc2 (hlen w hwts)
        cases htx : text src w with
        | nil => exact hne htx
        | cons b x =>
          have hb := hsp b (by simp only [htx]; simp)
          rw [htx] at hr
          have : src[w.offset]? = some b := by
            have := congrArg (·[0]?) hr
            simpa [List.getElem?_drop] using this
          rw [hc1, show y.stop = o + k.length by omega, hd] at this
          cases this
          unfold Space at hb
          omega
    subst hmid
    have hc' : Contiguous 0 (p ++ y :: e :: t :: post) src.length := by simpa using hc
    obtain ⟨_, _, ⟨_, _, e2, e3, t2, t3, _⟩, _⟩ := contiguous_split hc'
    have hets : e ∈ ts := by rw [hts]; simp
    have htts : t ∈ ts := by rw [hts]; simp
    have hok := h.textOK hets
    unfold TextOK at hok
    rw [he] at hok
    have hel := text_len (hlen e hets)
    have htl := text_len (hlen t htts)
    have : (text src e).length = 1 := by
      have : text src e = b!"=" := hok
      rw [this]; rfl
    rw [h3] at htl
    exact ⟨p, y, e, t, post, by rw [hts]; simp, h5, h7, h8, he, by omega, by omega, h2, by omega, by omega, h3⟩

/-! ### Attributes are tokens -/

def NameTok (src : Str) (l : List Tok) (k : Str) (o : Nat) : Prop :=
  ∃ t ∈ l, t.type = .AttributeName ∧ t.offset = o ∧ text src t = k

def NamesInv (src : Str) (l : List Tok) (r : List TagInfo) : Prop :=
  ∀ i ∈ r, ∀ k a, (k, a) ∈ i.attributes → NameTok src l k a.offset

theorem NamesInv.mono {l : List Tok} {r : List TagInfo} (h : NamesInv src l r) (x : Tok) : NamesInv src (l ++ [x]) r := by
  intro i hi k a ha
  obtain ⟨t, h1, h2⟩ := h i hi k a ha
  exact ⟨t, List.mem_append_left _ h1, h2⟩

theorem NamesInv.modify {l : List Tok} {r : List TagInfo} (h : NamesInv src l r) {f : TagInfo → TagInfo}
    (hf : ∀ i ∈ r, ∀ k a, (k, a) ∈ (f i).attributes → NameTok src l k a.offset) : NamesInv src l (modifyLast f r) := by
  by_cases hne : r = []
  · subst hne; simp [NamesInv, modifyLast]
  · obtain ⟨i, j, e1, e2⟩ := modifyLast_eq f r hne
    rw [e2]
    intro i' hi' k a ha
    rcases List.mem_append.1 hi' with h1 | h1
    · exact h i' (by rw [e1]; simp [h1]) k a ha
    · rw [List.mem_singleton] at h1
      subst h1
      exact hf j (by rw [e1]; simp) k a ha

theorem NamesInv.setValue {l : List Tok} {r : List TagInfo} (h : NamesInv src l r) (k v : Str) :
    NamesInv src l (modifyLast (Spec.setValue k v) r) := by
  refine h.modify fun i hi k' a ha => ?_
  unfold Spec.setValue at ha
  split at ha
  · rename_i b hg
    rcases mem_attrInsert ha with ha | ha
    · cases ha
      exact h i hi k b (attrGet_mem hg)
    · exact h i hi k' a ha
  · exact h i hi k' a ha

theorem NamesInv.step {l : List Tok} {r : List TagInfo × Option Str} (h : NamesInv src l r.1) (x : Tok) :
    NamesInv src (l ++ [x]) (readTag src r x).1 := by
  unfold readTag
  split
  · intro i hi k a ha
    rcases List.mem_append.1 hi with h1 | h1
    · exact h.mono x i h1 k a ha
    · rw [List.mem_singleton] at h1; subst h1; cases ha
  · exact (h.mono x).modify fun i hi k a ha => h.mono x i hi k a ha
  · rename_i hk
    refine (h.mono x).modify fun i hi k a ha => ?_
    rcases mem_attrInsert ha with ha | ha
    · cases ha
      exact ⟨x, by simp, hk, rfl, rfl⟩
    · exact h.mono x i hi k a ha
  · exact (h.mono x).setValue _ _
  · exact (h.mono x).setValue _ _
  · exact h.mono x

theorem namesInv_foldl (l l' : List Tok) {r : List TagInfo × Option Str} (h : NamesInv src l r.1) :
    NamesInv src (l ++ l') (l'.foldl (readTag src) r).1 := by
  induction l' generalizing l r with
  | nil => simpa using h
  | cons x l' ih =>
    have := ih _ (h.step x)
    simpa using this

/-- The name of an attribute is a token. -/
theorem Doc.name_tok (h : Doc u cs void src roots ts) {n : Node} (hn : InForest roots n) {k : Str} {a : Attr}
    (ha : (k, a) ∈ n.attributes) : NameTok src ts k a.offset := by
  obtain ⟨ts', h1, h2⟩ := C18_start_tags_exact u cs void src roots h.parse
  rw [h.tokens] at h1; cases h1
  have hi := namesInv_foldl (src := src) [] ts (r := ([], none)) (by intro i hi; cases hi)
  rw [List.nil_append] at hi
  refine hi n.info ?_ k a ha
  rw [← h2]
  exact infos_deep hn _ (by rw [infoNode_eq]; exact List.mem_cons_self)


theorem StepTag.not_value {c : Cfg} {s s' : Sc} (h : StepTag c s s') : s'.tokenType ≠ .AttributeValue := by
  cases h <;> simp [fin]

theorem Step.tag_not_value {c : Cfg} {s s' : Sc} (h : Step c s s') (hs : s.state = .WithinTag) :
    s'.tokenType ≠ .AttributeValue := by
  cases h
  case tag hx => exact hx.not_value
  case eos => simp [fin]
  all_goals (exfalso; simp_all; done)

/-- A name directly in front of `=`. -/
theorem Doc.assign_tok (h : Doc u cs void src roots ts) {y : Tok} (hy : y ∈ ts) (hk : y.type = .AttributeName)
    (hd : src[y.stop]? = some 61) :
    ∃ p s post s2, ts = p ++ y :: s.tok :: post ∧ s.tokenType = .DelimiterAssign ∧ s.tokenOffset = y.stop ∧ s.pos = y.stop + 1 ∧
      s.state = .BeforeAttributeValue ∧ Run (parserCfg u cs src) s post s2 ∧ src.length ≤ s2.pos := by
  obtain ⟨p, post, e⟩ := List.append_of_mem hy
  obtain ⟨s2, h1, hlen2⟩ := tokens_run h.tokens
  rw [e, show p ++ y :: post = (p ++ [y]) ++ post by simp] at h1
  obtain ⟨s, h2, h3⟩ := h1.split
  have hl := h2.last
  obtain ⟨s0, s1, hst, _, htok⟩ := h2.mem (t := y) (by simp)
  have hst : s.state = .AfterAttributeName := by
    have := hst.name_state (by rw [htok] at hk; exact hk)
    rw [show s.state = y.state by rw [← hl]; rfl, htok]
    exact this
  have hpos : s.pos = y.stop := by rw [← hl]; rfl
  have hL : y.stop < src.length := (List.getElem?_eq_some_iff.1 hd).1
  have hr : (rest (parserCfg u cs src) s).head? = some 61 := by rw [rest_head, hpos]; exact hd
  have hw : wsLen (rest (parserCfg u cs src) s) = 0 :=
    wsLen_zero_iff.2 fun b hb => by rw [hr] at hb; cases hb; rfl
  cases h3 with
  | nil => exact absurd hlen2 (by show ¬ src.length ≤ _; omega)
  | @cons _ sa _ post g1 g2 g3 =>
    refine ⟨p, sa, post, s2, e, ?_⟩
    rw [← hpos]
    refine ⟨?_, ?_, ?_, ?_, g3, hlen2⟩
    all_goals
      have g := scan_step g1
      clear g1 g2 g3 h1 h2
      cases g
      case eos hx => exact absurd hx (by show ¬ src.length ≤ _; omega)
      case assign => rfl
      case afterNameWs hx => omega
      case afterNameTag hx _ => exact absurd hr hx
      all_goals (exfalso; simp_all; done)

/-- No value behind `=`. -/
theorem Doc.empty_toks (h : Doc u cs void src roots ts) {k r : Str} {o b : Nat} (hk : NameTok src ts k o)
    (hd : src.drop (o + k.length) = 61 :: b :: r) (hb : Space b ∨ b = 62) :
    ∃ p y e t post, ts = p ++ y :: e :: t :: post ∧ y.type = .AttributeName ∧ y.offset = o ∧ text src y = k ∧
      e.type = .DelimiterAssign ∧ e.offset = o + k.length ∧ e.stop = o + k.length + 1 ∧ t.type ≠ .AttributeValue := by
  obtain ⟨y, y1, y2, y3, y4⟩ := hk
  have hlen := (contiguous_le h.contiguous).2
  have hl := text_len (hlen y y1)
  have hn := h.nonempty y1 (.inr (.inr y2))
  rw [y4] at hl
  have hys : y.stop = o + k.length := by omega
  have hL := congrArg List.length hd
  simp only [List.length_drop, List.length_cons] at hL
  obtain ⟨p, sa, post, s2, e, a1, a2, a3, a4, g3, hlen2⟩ := h.assign_tok y1 y2 (by
    have := congrArg (·[0]?) hd
    rw [hys]
    simpa [List.getElem?_drop] using this)
  rw [hys] at a2 a3
  have hra : rest (parserCfg u cs src) sa = [] ++ b :: r := by
    refine rest_eq a3 ?_
    show src.drop (o + k.length + 1) = _
    rw [← List.drop_drop, hd]; rfl
  have hpa : sa.pos < (parserCfg u cs src).src.length := by show _ < src.length; omega
  cases g3 with
  | nil => exact absurd hlen2 (by omega)
  | @cons _ sb _ post k1 k2 k3 =>
    have hb2 : sb.tokenType ≠ .AttributeValue := by
      obtain ⟨sw, w1, w2, w3⟩ : ∃ sw, sw.state = .WithinTag ∧ sw.pos = sa.pos ∧ scan (parserCfg u cs src) sw = .ok sb :=
        ⟨_, rfl, rfl, (scan_no_value a4 hpa hra hb).trans k1⟩
      exact (scan_step w3).tag_not_value w1
    exact ⟨p, y, _, _, post, e, y2, y3, y4, a1, a2, a3, hb2⟩

/-! ### The element of a start tag -/

theorem map_fixed {α : Type} {f : α → α} {l : List α} (h : l.map f = l) : ∀ x ∈ l, f x = x := by
  induction l with
  | nil => simp
  | cons a l ih =>
    simp only [List.map_cons, List.cons.injEq] at h
    intro x hx
    rcases List.mem_cons.1 hx with rfl | hx
    · exact h.1
    · exact ih h.2 x hx

theorem retag_fixed {P l m : Nat} {A : List (Str × Attr)} (h : roots = retagAll P l m A roots) {n : Node} (hn : InForest roots n) :
    retag P l m A n = n := by
  induction hn with
  | root hm => exact map_fixed (by rw [← retagAll_map]; exact h.symm) _ hm
  | @child m n _ hc ih =>
    rw [retag_eq] at ih
    have := congrArg Node.children ih
    exact map_fixed this _ hc

/-- In content follows a start tag. -/
theorem stream_open {c : Cfg} {s : Sc} {l : List Tok} {t name x : Str} {i : Nat} (h : Stream c s l) (hs : InText s i)
    (hd : c.src.drop i = t ++ 60 :: (name ++ x)) (ht : 60 ∉ t) (hn : TagName name) :
    ∃ tk ∈ l, tk.type = .StartTagOpen ∧ tk.offset = i + t.length := by
  have first : ∀ {s : Sc} {l : List Tok} {i : Nat}, Stream c s l → InText s i → c.src.drop i = 60 :: (name ++ x) →
      ∃ tk ∈ l, tk.type = .StartTagOpen ∧ tk.offset = i := by
    intro s l i h hs hd
    have hp : s.pos < c.src.length := hs.pos ▸ pos_lt hd
    have hr := rest_eq hs.pos hd
    cases l with
    | nil =>
      obtain ⟨s1, h1, h2⟩ := h.nil
      have := (scan_step h1).eos_iff.1 h2
      omega
    | cons tk l =>
      obtain ⟨s1, h1, h2, rfl, _⟩ := h.cons
      clear h
      have h1 := (scan_step h1).invContent hs.state hp
      obtain ⟨⟨a, k, e, ha⟩, hn2⟩ := id hn
      have h47 : a ≠ 47 := by rintro rfl; revert ha; simp [NameStartByte, alnum]
      have h33 : lowerByte a ≠ 33 := by
        unfold lowerByte; intro e; split at e
        · omega
        · subst e; revert ha; simp [NameStartByte, alnum]
      have h33' : a ≠ 33 := by rintro rfl; revert ha; simp [NameStartByte, alnum]
      refine ⟨_, List.mem_cons_self, ?_⟩
      cases h1 with
      | startComment h => rw [hr, e] at h; simp at h; omega
      | startDoctype h => rw [hr, e] at h; simp [lowerByte] at h; unfold lowerByte at h33; omega
      | endTagOpen h => rw [hr, e] at h; simp at h; omega
      | content h0 h1 => rw [hr] at h0; simp at h0
      | startTagOpen => exact ⟨rfl, hs.pos⟩
  cases t with
  | nil => exact first h hs hd
  | cons b t =>
    have hp : s.pos < c.src.length := hs.pos ▸ pos_lt hd
    have hr := rest_eq hs.pos hd
    cases l with
    | nil =>
      obtain ⟨s1, h1, h2⟩ := h.nil
      have := (scan_step h1).eos_iff.1 h2
      omega
    | cons tk l =>
      obtain ⟨s1, h1, h2, rfl, h3⟩ := h.cons
      clear h
      have h1 := (scan_step h1).invContent hs.state hp
      simp only [List.mem_cons, not_or] at ht
      have hb : b ≠ 60 := fun e => ht.1 e.symm
      have hu : untilByte 60 (rest c s) = t.length + 1 := by
        rw [hr, untilByte_append (by simp [ht])]; simp [untilByte]
      cases h1 with
      | startComment h => rw [hr] at h; simp at h; omega
      | startDoctype h => rw [hr] at h; simp [lowerByte] at h; split at h <;> omega
      | endTagOpen h => rw [hr] at h; simp at h; omega
      | startTagOpen h => rw [hr] at h; simp at h; omega
      | content h0 h1 =>
        obtain ⟨tk, h4, h5, h6⟩ := first h3 (i := i + (t.length + 1)) ⟨hs.state, by simp only [fin, adv, hu, hs.pos]⟩
          (drop_add hd (by simp))
        exact ⟨tk, List.mem_cons_of_mem _ h4, h5, h6⟩

theorem Run.after {c : Cfg} {s s2 : Sc} {a l : List Tok} (h : Run c s a s2) (hs : Stream c s l) :
    ∃ l', l = a ++ l' ∧ Stream c s2 l' := by
  induction h generalizing l with
  | nil s => exact ⟨l, rfl, hs⟩
  | cons h hne hr ih =>
    cases l with
    | nil =>
      obtain ⟨s', h1, h2⟩ := hs.nil
      rw [h] at h1; cases h1
      exact absurd h2 hne
    | cons t l =>
      obtain ⟨s', h1, h2, rfl, h3⟩ := hs.cons
      rw [h] at h1; cases h1
      obtain ⟨l', e, h4⟩ := ih h3
      exact ⟨l', by rw [e]; rfl, h4⟩

/-- The `<` behind a text that ends in content. -/
theorem open_tok {pre name x : Str} (hpre : EndsInContent u cs pre) (hn : TagName name)
    (h : tokens (parserCfg u cs (pre ++ 60 :: (name ++ x))) (.new 0 .WithinContent) = .ok ts) :
    ∃ tk ∈ ts, tk.type = .StartTagOpen ∧ tk.offset = pre.length := by
  obtain ⟨a, t, rfl, ht, ha⟩ := hpre
  have hs : Stream (parserCfg u cs (a ++ t ++ 60 :: (name ++ x))) (.new 0 .WithinContent) ts := tokensF_run h
  have hd : (parserCfg u cs (a ++ t ++ 60 :: (name ++ x))).src.drop a.length = t ++ 60 :: (name ++ x) := by
    simp [parserCfg]
  rcases ha with rfl | ⟨i, tk, hb, hst⟩
  · obtain ⟨k, h1, h2, h3⟩ := stream_open hs ⟨rfl, rfl⟩ hd ht hn
    exact ⟨k, h1, h2, by rw [h3]; simp [Sc.new]⟩
  · obtain ⟨z, hz, hw, _, h1⟩ := hb.split
    have hz : a = z ++ [62] := hz
    obtain ⟨s2, hr, hlen⟩ := tokens_run hb.toks
    have G : Agree z (parserCfg u cs a) (parserCfg u cs (a ++ t ++ 60 :: (name ++ x))) :=
      ⟨⟨[], hz⟩, ⟨t ++ 60 :: (name ++ x), by simp [parserCfg, hz]⟩, rfl, rfl, rfl, hw⟩
    have hrx := hr.keeps G (Nat.zero_le _) rfl h1 hb.kind hb.nonempty
    have hl := hr.last
    have hs2 : s2.state = .WithinContent := by rw [← hst, ← hl]; rfl
    have hpos : s2.pos = a.length := by
      have : tk.stop = s2.pos := by rw [← hl]; rfl
      rw [hz]; simp; omega
    obtain ⟨l', e, h2⟩ := hrx.after hs
    obtain ⟨k, h3, h4, h5⟩ := stream_open h2 ⟨hs2, hpos⟩ hd ht hn
    exact ⟨k, by rw [e]; exact List.mem_append_right _ h3, h4, by rw [h5]; simp⟩

/-- What follows the name of a start tag. -/
theorem print_sep {tag : TagText} {y : Str} (hl : tag.Legal) (hy : (∃ z, y = 62 :: z) ∨ ∃ z, y = 47 :: 62 :: z) :
    ∃ b r, printAttrs tag.attrs ++ tag.gap ++ y = b :: r ∧ TagSep b := by
  obtain ⟨name, attrs, gap⟩ := tag
  obtain ⟨⟨hl, _⟩, hg⟩ := hl
  dsimp only at *
  cases attrs with
  | nil =>
    cases gap with
    | nil =>
      rcases hy with ⟨z, rfl⟩ | ⟨z, rfl⟩
      · exact ⟨62, z, rfl, .inr (.inl rfl)⟩
      · exact ⟨47, _, rfl, .inr (.inr rfl)⟩
    | cons b g => exact ⟨b, g ++ y, rfl, .inl (hg b (by simp))⟩
  | cons a l =>
    obtain ⟨h1, h2, -⟩ := hl a (by simp)
    cases hgap : a.gap with
    | nil => exact absurd hgap h1
    | cons b g =>
      exact ⟨b, _, by rw [printAttrs, AttrText.print, hgap]; simp only [List.cons_append]; rfl, .inl (h2 b (by rw [hgap]; simp))⟩

theorem name_unique {name t x : Str} {b : Nat} (hn : TagName name) (hb : TagSep b) {i hi : Nat}
    (hd : src.drop i = name ++ b :: x) {o : Option Str} (h : NameAfter src i o hi) : o = some name := by
  obtain ⟨⟨c, k, e, hc⟩, hall⟩ := hn
  have at0 : src[i]? = some c := by
    have := congrArg (·[0]?) hd
    simpa [List.getElem?_drop, e] using this
  have hcs : ¬ Space c := by
    intro h; revert hc
    rcases h with rfl | rfl | rfl | rfl | rfl <;> simp [NameStartByte, alnum]
  have hw : ∀ {w : Str} {r : Str}, Spaces w → At src i (w ++ r) → w = [] := by
    rintro (_ | ⟨d, w⟩) r hw ⟨r', hr⟩
    · rfl
    · exfalso
      have := congrArg (·[0]?) hr
      simp only [List.getElem?_drop, Nat.add_zero, at0] at this
      simp at this
      exact hcs (this ▸ hw d (by simp))
  cases o with
  | none =>
    obtain ⟨w, h1, h2, h3, _⟩ := h
    have := hw (r := []) h1 (by simpa using h2)
    subst this
    exact absurd hc (h3 c (by simpa using at0))
  | some t =>
    obtain ⟨w, h1, h2, h3, h4, _⟩ := h
    have := hw h1 h2
    subst this
    obtain ⟨r, hr⟩ := h2
    simp only [List.nil_append, List.length_nil, Nat.add_zero] at hr h4
    rw [hd] at hr
    rcases Nat.lt_trichotomy t.length name.length with hlt | heq | hgt
    · exfalso
      have hm : name[t.length]? = some name[t.length] := List.getElem?_eq_getElem hlt
      refine h4 name[t.length] ?_ (hall _ (List.getElem_mem hlt))
      have := congrArg (·[t.length]?) hd
      simp only [List.getElem?_drop, List.getElem?_append_left hlt, hm] at this
      exact this
    · rw [(List.append_inj hr heq.symm).1]
    · exfalso
      have := congrArg (·[name.length]?) hr
      simp only [List.getElem?_append_left hgt] at this
      simp at this
      have hbt : b ∈ t := List.mem_of_getElem? this.symm
      have := h3.2.1 b hbt
      rcases hb with (rfl | rfl | rfl | rfl | rfl) | rfl | rfl <;> simp [alnum] at this

/-- The element of a start tag that is written legally. -/
theorem tag_node {pre y : Str} {tag : TagText} (hpre : EndsInContent u cs pre) (hn : TagName tag.name) (hl : tag.Legal)
    (hraw : LegalName tag.name ∨ ∀ a ∈ tag.attrs, asciiLower a.name ≠ b!"type")
    (hy : (∃ z, y = 62 :: z) ∨ ((∃ z, y = 47 :: 62 :: z) ∧ SlashFree tag))
    (h : Doc u cs void (pre ++ tag.print ++ y) roots ts) :
    ∃ n, InForest roots n ∧ n.start = pre.length ∧ n.tag = some tag.name ∧ n.attributes = tag.nodes pre.length := by
  have hr := parse_retag hpre hn hl hl rfl (by
    refine hraw.imp id fun hr a ha => ?_
    rw [List.mem_append] at ha
    exact hr a (ha.elim id id)) (by
    refine hy.imp id fun hy => ⟨hy.1, hy.2, hy.2⟩) h.parse h.parse
  obtain ⟨tk, htk, hk, ho⟩ : ∃ tk ∈ ts, tk.type = .StartTagOpen ∧ tk.offset = pre.length := by
    refine open_tok hpre hn (x := printAttrs tag.attrs ++ tag.gap ++ y) ?_
    rw [← h.tokens]; simp [TagText.print]
  obtain ⟨n, hn1, hn2⟩ := h.tok_node htk hk
  have hf := retag_fixed hr hn1
  refine ⟨n, hn1, by omega, ?_, ?_⟩
  · obtain ⟨b, r, hb, hb2⟩ := print_sep hl (hy.imp id (·.1))
    refine name_unique (t := []) (x := r) hn hb2 ?_ (parse_done h.parse hn1).name.spec
    rw [show n.start + 1 = (pre ++ [60]).length by simp; omega, ← hb]
    rw [show pre ++ tag.print ++ y = (pre ++ [60]) ++ (tag.name ++ (printAttrs tag.attrs ++ tag.gap ++ y)) by
      simp [TagText.print]]
    exact List.drop_left
  · rw [retag_eq, if_pos (by omega)] at hf
    exact (congrArg Node.attributes hf).symm

/-! ### The value of an attribute of a start tag -/

theorem printAttrs_mid (x z : List AttrText) (a : AttrText) : printAttrs (x ++ a :: z) = printAttrs x ++ a.print ++ printAttrs z := by
  induction x with
  | nil => simp [printAttrs]
  | cons b x ih => simp [printAttrs, ih]

theorem TagHole.print_fill (t : TagHole) (v : Str) : (t.fill v).print = t.front ++ v ++ (printAttrs t.after ++ t.back) := by
  simp [TagHole.fill, TagHole.front, TagText.print, printAttrs_mid, AttrText.print]

theorem attrNodes_mem (x z : List AttrText) (a : AttrText) (i : Nat) :
    (a.name, ⟨a.value, i + (printAttrs x).length + a.gap.length⟩) ∈ attrNodes i (x ++ a :: z) := by
  induction x generalizing i with
  | nil => simp [printAttrs, attrNodes]
  | cons b x ih =>
    have := ih (i + b.print.length)
    simp only [List.cons_append, attrNodes, List.mem_cons, printAttrs, List.length_append]
    right
    simpa [Nat.add_assoc] using this

theorem lastName_unique {l : List Tok} {y y' : Tok} (h : LastName l y) (h' : LastName l y') : y = y' := by
  have key : ∀ {y : Tok}, LastName l y → (l.filter (·.type = .AttributeName)).getLast? = some y := by
    rintro y ⟨p, mid, rfl, h1, h2⟩
    have : mid.filter (·.type = .AttributeName) = [] := by
      rw [List.filter_eq_nil_iff]
      intro a ha
      simp [h2 a ha]
    rw [List.filter_append, List.filter_cons, this]
    simp [h1]
  have := (key h).symm.trans (key h')
  exact Option.some.inj this

/-- The element and the tokens of a value that is written in a start tag. -/
theorem value_setup {pre v y : Str} {tag : TagHole} (hpre : EndsInContent u cs pre) (hn : LegalName tag.name)
    (hl : (tag.fill v).Legal) (hv : v ≠ []) (h : Doc u cs void (pre ++ (tag.fill v).print ++ (b!">" ++ y)) roots ts) :
    ∃ n p k e t post, InForest roots n ∧ n.start = pre.length ∧ n.tag = some tag.name ∧ ts = p ++ k :: e :: t :: post ∧
      k.type = .AttributeName ∧ text (pre ++ (tag.fill v).print ++ (b!">" ++ y)) k = tag.key ∧
      e.type = .DelimiterAssign ∧ e.stop = pre.length + tag.front.length ∧ t.type = .AttributeValue ∧
      t.offset = pre.length + tag.front.length ∧ t.stop = pre.length + tag.front.length + v.length ∧
      t.stop ≤ n.startTagEnd.getD n.stop := by
  obtain ⟨n, n1, n2, n3, n4⟩ := tag_node hpre hn.1 hl (.inl hn) (.inl ⟨y, rfl⟩) h
  have hm : (tag.key, (⟨some v, pre.length + 1 + tag.name.length + (printAttrs tag.before).length + tag.gap.length⟩ : Attr)) ∈
      n.attributes := by
    rw [n4]
    exact attrNodes_mem tag.before tag.after ⟨tag.gap, tag.key, some v⟩ _
  have hfl : pre.length + tag.front.length =
      pre.length + 1 + tag.name.length + (printAttrs tag.before).length + tag.gap.length + tag.key.length + 1 := by
    simp [TagHole.front]; omega
  obtain ⟨p, k, e, t, post, g1, g2, g3, g4, g5, g6, g7, g8, g9, g10, g11⟩ := h.value_toks (h.has_value n1 hm hv) (by
    rw [TagHole.print_fill]
    have : (pre ++ (tag.front ++ v ++ (printAttrs tag.after ++ tag.back)) ++ (b!">" ++ y)) =
        (pre ++ b!"<" ++ tag.name ++ printAttrs tag.before ++ tag.gap ++ tag.key) ++ 61 ::
          (v ++ (printAttrs tag.after ++ tag.back) ++ (b!">" ++ y)) := by simp [TagHole.front]
    rw [this, show pre.length + 1 + tag.name.length + (printAttrs tag.before).length + tag.gap.length + tag.key.length =
      (pre ++ b!"<" ++ tag.name ++ printAttrs tag.before ++ tag.gap ++ tag.key).length by simp; omega]
    simp)
  refine ⟨n, p, k, e, t, post, n1, n2, n3, g1, g2, g4, g5, by omega, g8, by omega, by omega, ?_⟩
  have hin := (C18_attributes_from_own_start_tag u cs void _ roots n h.parse n1).1 _ _ hm
  obtain ⟨_, _, w, _, _, hw, _⟩ := hin
  simp only [List.length_append] at hw
  have : (b!"=").length = 1 := rfl
  omega

theorem applyEdits_one {d : TextDoc} (hd : Lawful d) {x y z w : Str} (ht : d.text = x ++ y ++ z)
    (h1 : isBoundary d.text x.length = true) (h2 : isBoundary d.text (x.length + y.length) = true) :
    applyEdits d [⟨⟨d.posAt x.length, d.posAt (x.length + y.length)⟩, w⟩] = x ++ w ++ z := by
  simp only [applyEdits]
  rw [hd.roundTrip _ (by rw [ht]; simp) h1, hd.roundTrip _ (by rw [ht]; simp) h2, ht]
  rw [show x.length + y.length = (x ++ y).length by simp, List.drop_left, List.append_assoc x y z, List.take_left]

theorem mem_edits {l : List CompItem} {x : Str} {te : Option TextEdit} (h : (x, te) ∈ edits l) :
    ∃ i ∈ l, i.label = x ∧ i.textEdit = te := by
  obtain ⟨i, hi, e⟩ := List.mem_map.1 h
  cases e
  exact ⟨i, hi, rfl, rfl⟩

theorem fill_legal {tag : TagHole} {v v' : Str} (h : (tag.fill v).Legal) (hv : Quoted v') : (tag.fill v').Legal := by
  obtain ⟨⟨k1, k2⟩, k3⟩ := h
  refine ⟨⟨fun a ha => ?_, by simpa [TagHole.fill] using k2⟩, k3⟩
  simp only [TagHole.fill, List.mem_append, List.mem_cons] at ha k1
  rcases ha with ha | rfl | ha
  · exact k1 a (.inl ha)
  · obtain ⟨j1, j2, j3, j4, -⟩ := k1 _ (.inr (.inl rfl))
    exact ⟨j1, j2, j3, j4, fun w hw => .inl (by cases hw; exact hv)⟩
  · exact k1 a (.inr (.inr ha))

/-- Behind a value is ASCII. -/
theorem value_end {tag : TagHole} {v y : Str} (hl : (tag.fill v).Legal) :
    ∃ b r, printAttrs tag.after ++ tag.back ++ (b!">" ++ y) = b :: r ∧ b < 128 := by
  obtain ⟨b, r, h1, h2⟩ := print_sep (tag := ⟨tag.name, tag.after, tag.back⟩) (y := b!">" ++ y) (by
    obtain ⟨⟨k1, k2⟩, k3⟩ := hl
    refine ⟨⟨fun a ha => k1 a (by simp [TagHole.fill]; right; right; exact ha), ?_⟩, k3⟩
    simp only [TagHole.fill, List.map_append, List.map_cons] at k2
    have := (List.nodup_append.1 k2).2.1
    exact (List.nodup_cons.1 this).2) (.inl ⟨y, rfl⟩)
  exact ⟨b, r, h1, h2.lt⟩

theorem value_start {tag : TagHole} {v : Str} (hl : (tag.fill v).Legal) (hne : v ≠ []) : ∃ b r, v = b :: r ∧ b < 128 := by
  obtain ⟨⟨k1, _⟩, _⟩ := hl
  obtain ⟨-, -, -, -, hv⟩ := k1 ⟨tag.gap, tag.key, some v⟩ (by simp [TagHole.fill])
  rcases hv v rfl with ⟨q, w, hq, -, rfl⟩ | ⟨-, hall⟩ | h0
  · exact ⟨q, w ++ [q], by simp, by omega⟩
  · cases v with
    | nil => exact absurd rfl hne
    | cons b r => exact ⟨b, r, rfl, (hall b (by simp)).1⟩
  · exact absurd h0 hne

/-- Behind an attribute of a start tag is white space or a bracket. -/
theorem value_sep {tag : TagHole} {v y : Str} (hl : (tag.fill v).Legal) :
    ∃ b r, printAttrs tag.after ++ tag.back ++ (b!">" ++ y) = b :: r ∧ (Space b ∨ b = 62) := by
  obtain ⟨⟨k1, _⟩, k3⟩ := hl
  cases hz : tag.after with
  | nil =>
    cases hg : tag.back with
    | nil => exact ⟨62, y, rfl, .inr rfl⟩
    | cons b g => exact ⟨b, g ++ (b!">" ++ y), by simp [printAttrs], .inl (k3 b (by simp [TagHole.fill, hg]))⟩
  | cons a l =>
    obtain ⟨j1, j2, _⟩ := k1 a (by simp [TagHole.fill, hz])
    cases hg : a.gap with
    | nil => exact absurd hg j1
    | cons b g =>
      cases hv : a.value <;>
        exact ⟨b, _, by simp [printAttrs, AttrText.print, hg, hv]; rfl, .inl (j2 b (by simp [hg]))⟩

/-- The element and the tokens of an attribute with a value, which may be empty. -/
theorem value_setup_any {pre v y : Str} {tag : TagHole} (hpre : EndsInContent u cs pre) (hn : LegalName tag.name)
    (hl : (tag.fill v).Legal) (h : Doc u cs void (pre ++ (tag.fill v).print ++ (b!">" ++ y)) roots ts) :
    ∃ n p k e post, InForest roots n ∧ n.start = pre.length ∧ n.tag = some tag.name ∧ ts = p ++ k :: e :: post ∧
      k.type = .AttributeName ∧ text (pre ++ (tag.fill v).print ++ (b!">" ++ y)) k = tag.key ∧
      e.type = .DelimiterAssign ∧ e.stop = pre.length + tag.front.length ∧
      nameEnd .AttributeValue (pre.length + tag.front.length) post = pre.length + tag.front.length + v.length ∧
      pre.length + tag.front.length ≤ n.startTagEnd.getD n.stop := by
  by_cases hv : v = []
  · subst hv
    obtain ⟨n, n1, n2, n3, n4⟩ := tag_node hpre hn.1 hl (.inl hn) (.inl ⟨y, rfl⟩) h
    have hm : (tag.key, (⟨some [], pre.length + 1 + tag.name.length + (printAttrs tag.before).length + tag.gap.length⟩ : Attr)) ∈
        n.attributes := by
      rw [n4]
      exact attrNodes_mem tag.before tag.after ⟨tag.gap, tag.key, some []⟩ _
    have hfl : pre.length + tag.front.length =
        pre.length + 1 + tag.name.length + (printAttrs tag.before).length + tag.gap.length + tag.key.length + 1 := by
      simp [TagHole.front]; omega
    obtain ⟨b, r, hb1, hb2⟩ := value_sep (y := y) hl
    obtain ⟨p, k, e, t, post, g1, g2, g3, g4, g5, g6, g7, g8⟩ := h.empty_toks (h.name_tok n1 hm) (b := b) (r := r) (by
      rw [TagHole.print_fill]
      have : (pre ++ (tag.front ++ [] ++ (printAttrs tag.after ++ tag.back)) ++ (b!">" ++ y)) =
          (pre ++ b!"<" ++ tag.name ++ printAttrs tag.before ++ tag.gap ++ tag.key) ++ (61 ::
            (printAttrs tag.after ++ tag.back ++ (b!">" ++ y))) := by simp [TagHole.front]
      rw [this, show pre.length + 1 + tag.name.length + (printAttrs tag.before).length + tag.gap.length + tag.key.length =
        (pre ++ b!"<" ++ tag.name ++ printAttrs tag.before ++ tag.gap ++ tag.key).length by simp; omega, List.drop_left, hb1]) hb2
    dsimp only at g7
    refine ⟨n, p, k, e, t :: post, n1, n2, n3, g1, g2, g4, g5, by omega, by simp [nameEnd, g8], ?_⟩
    have hin := (C18_attributes_from_own_start_tag u cs void _ roots n h.parse n1).1 _ _ hm
    obtain ⟨_, _, w, _, _, hw, _⟩ := hin
    simp only [List.length_append] at hw
    have : (b!"=").length = 1 := rfl
    omega
  · obtain ⟨n, p, k, e, t, post, n1, n2, n3, g1, g2, g3, g4, g5, g6, g7, g8, g9⟩ := value_setup hpre hn hl hv h
    exact ⟨n, p, k, e, t :: post, n1, n2, n3, g1, g2, g3, g4, g5, by simp [nameEnd, g6, g8], by omega⟩

variable {e : CompEnv} {d : TextDoc} {position : Pos} {o : Nat} {cps : List Nat}

theorem accept_retag {pre v v' y : Str} {tag : TagHole} (hpre : EndsInContent u cs pre) (hn : LegalName tag.name)
    (hl : (tag.fill v).Legal) (hv : Quoted v') {src' : Str} {roots' : List Node}
    (h : parse u cs void (pre ++ (tag.fill v).print ++ (b!">" ++ y)) = .ok roots)
    (he : src' = pre ++ (tag.fill v').print ++ (b!">" ++ y)) (h' : parse u cs void src' = .ok roots') :
    roots' = retagAll pre.length (tag.fill v).print.length (tag.fill v').print.length ((tag.fill v').nodes pre.length) roots := by
  subst he
  exact parse_retag hpre hn.1 hl (fill_legal hl hv) rfl (.inl hn) (.inl ⟨y, rfl⟩) h h'

/-- A value without quotes, and directly behind `=`. -/
theorem accept_bare {pre v y : Str} {tag : TagHole} {r : List CompItem} (hu : Utf8 cps d.text) (hd : Lawful d)
    (hpre : EndsInContent e.uni e.caseSensitive pre) (hn : LegalName tag.name) (hl : (tag.fill v).Legal)
    (ht : d.text = pre ++ (tag.fill v).print ++ (b!">" ++ y))
    (h : parse e.uni e.caseSensitive void d.text = .ok roots) (ho : d.offsetAt position = o)
    (hc : o = pre.length + tag.front.length ∨
      pre.length + tag.front.length < o ∧ o ≤ pre.length + tag.front.length + v.length ∧ Bare v)
    (hr : doComplete e d position roots = .ok r) {k : ValueData} (hk : k ∈ knownValues e tag.name tag.key) :
    ∃ i ∈ r, i.label = k.name ∧ ∃ te, i.textEdit = some te ∧
      applyEdits d [te] = pre ++ (tag.fill (b!"\"" ++ k.name ++ b!"\"")).print ++ (b!">" ++ y) := by
  obtain ⟨ts, hts, _⟩ := C13_one_node_per_bracket _ _ _ _ _ h
  have D : Doc e.uni e.caseSensitive void d.text roots ts := ⟨h, hts⟩
  have hfr : 0 < tag.front.length := by simp [TagHole.front]
  have hsplit : d.text = (pre ++ tag.front) ++ v ++ (printAttrs tag.after ++ tag.back ++ (b!">" ++ y)) := by
    rw [ht, TagHole.print_fill]; simp
  obtain ⟨b2, w2, hb2, hb3⟩ := value_end (y := y) hl
  have hb1 : isBoundary d.text (pre ++ tag.front).length = true := by
    rw [hsplit, List.append_assoc (pre ++ tag.front)]
    by_cases hv : v = []
    · rw [hv, hb2]
      exact boundary_at ⟨b2, w2, rfl, hb3⟩
    · obtain ⟨b, w, hvb, hb⟩ := value_start hl hv
      refine boundary_at ⟨b, w ++ (printAttrs tag.after ++ tag.back ++ (b!">" ++ y)), ?_, hb⟩
      rw [hvb]; rfl
  have hb4 : isBoundary d.text ((pre ++ tag.front).length + v.length) = true := by
    rw [hsplit, hb2, ← List.length_append]
    exact boundary_at ⟨b2, w2, rfl, hb3⟩
  have fin : ∀ {te : TextEdit}, te = ⟨⟨d.posAt (pre.length + tag.front.length), d.posAt (pre.length + tag.front.length + v.length)⟩,
      b!"\"" ++ k.name ++ b!"\""⟩ →
      applyEdits d [te] = pre ++ (tag.fill (b!"\"" ++ k.name ++ b!"\"")).print ++ (b!">" ++ y) := by
    rintro te rfl
    have := applyEdits_one hd (w := b!"\"" ++ k.name ++ b!"\"") hsplit hb1 hb4
    rw [List.length_append] at this
    rw [this, TagHole.print_fill]; simp
  rw [ht] at D
  rcases hc with hc | ⟨hc1, hc2, hbare⟩
  · obtain ⟨n, p, ky, eq, post, n1, n2, n3, g1, g2, g3, g4, g5, hne, g9⟩ := value_setup_any hpre hn hl D
    rw [← ht] at D g3
    subst g1
    obtain ⟨n', y', parts, values, m1, m2, m3, m4, m5, rfl, -, m6⟩ :=
      D.values_behind_equals (pre := p ++ [ky]) (t := eq) (post := post) (by simp) g4 (by omega) ho hr
    have e1 : y' = ky := lastName_unique m5 ⟨p, [], by simp, g2, by simp⟩
    obtain ⟨_, _, ⟨_, _, e2, e3, _⟩, _⟩ := contiguous_split D.contiguous
    have e4 : n' = n := D.same_tag m1 n1 (x := eq.stop) (by omega) m3 (by omega) (by omega)
    rw [e1, e4, n3, g3] at m6
    rw [hc, hne] at m6
    obtain ⟨i, i1, i2, i3⟩ := mem_edits (l := values) (x := k.name) (by rw [m6]; exact List.mem_map_of_mem hk)
    exact ⟨i, List.mem_append_right _ i1, i2, _, i3, fin rfl⟩
  · obtain ⟨b, w, hvb, hb⟩ := value_start hl hbare.1
    obtain ⟨n, p, ky, eq, t, post, n1, n2, n3, g1, g2, g3, g4, g5, g6, g7, g8, g9⟩ := value_setup hpre hn hl hbare.1 D
    rw [← ht] at D g3
    subst g1
    have hh : d.text[t.offset]? = some b := by
      rw [g7, ← List.length_append, hsplit, hvb]; simp
    have hb5 := hbare.2 b (by rw [hvb]; simp)
    obtain ⟨n', y', parts, values, m1, m2, m3, m4, m5, rfl, -, m6⟩ :=
      D.values_unquoted (pre := p ++ [ky, eq]) (t := t) (post := post) hu (by simp) g6
        (by rw [hh]; simp; omega) (by omega) (by omega) ho hr
    have e1 : y' = ky := lastName_unique m5 ⟨p, [eq], by simp, g2, by simp [g4]⟩
    have e4 : n' = n := D.same_tag m1 n1 (x := t.stop) (by omega) m3 (by omega) (by omega)
    rw [e1, e4, n3, g3, g7, g8] at m6
    obtain ⟨i, i1, i2, i3⟩ := mem_edits (l := values) (x := k.name) (by rw [m6]; exact List.mem_map_of_mem hk)
    exact ⟨i, List.mem_append_right _ i1, i2, _, i3, fin rfl⟩

theorem getElem?_mid {a x b : Str} {i : Nat} (h1 : a.length ≤ i) (h2 : i < a.length + x.length) :
    (a ++ x ++ b)[i]? = x[i - a.length]? := by
  rw [List.append_assoc, List.getElem?_append_right h1, List.getElem?_append_left (by omega)]

/-- In quotes. -/
theorem accept_quoted {pre w y : Str} {q : Nat} {tag : TagHole} {r : List CompItem} (hu : Utf8 cps d.text) (hd : Lawful d)
    (hpre : EndsInContent e.uni e.caseSensitive pre) (hn : LegalName tag.name) (hl : (tag.fill ([q] ++ w ++ [q])).Legal)
    (hq : q = 34 ∨ q = 39) (ht : d.text = pre ++ (tag.fill ([q] ++ w ++ [q])).print ++ (b!">" ++ y))
    (h : parse e.uni e.caseSensitive void d.text = .ok roots) (ho : d.offsetAt position = o)
    (hc1 : pre.length + tag.front.length < o) (hc2 : o ≤ pre.length + tag.front.length + 1 + w.length)
    (hr : doComplete e d position roots = .ok r) :
    ∃ w1 x w2, w = w1 ++ x ++ w2 ∧ WordOf w1 x w2 (o - (pre.length + tag.front.length + 1)) ∧
      ∀ k ∈ knownValues e tag.name tag.key, ∃ i ∈ r, i.label = k.name ∧ ∃ te, i.textEdit = some te ∧
        applyEdits d [te] = pre ++ (tag.fill ([q] ++ (w1 ++ k.name ++ w2) ++ [q])).print ++ (b!">" ++ y) := by
  obtain ⟨ts, hts, _⟩ := C13_one_node_per_bracket _ _ _ _ _ h
  have D : Doc e.uni e.caseSensitive void d.text roots ts := ⟨h, hts⟩
  rw [ht] at D
  obtain ⟨n, p, ky, eq, t, post, n1, n2, n3, g1, g2, g3, g4, g5, g6, g7, g8, g9⟩ := value_setup hpre hn hl (by simp) D
  rw [← ht] at D g3
  subst g1
  have hfr : 0 < tag.front.length := by simp [TagHole.front]
  have hlw : ([q] ++ w ++ [q]).length = w.length + 2 := by simp
  rw [hlw] at g8
  generalize hI : pre.length + tag.front.length = I at *
  have hsplit : d.text = (pre ++ tag.front ++ [q]) ++ w ++ ([q] ++ (printAttrs tag.after ++ tag.back ++ (b!">" ++ y))) := by
    rw [ht, TagHole.print_fill]; simp
  have hpl : (pre ++ tag.front ++ [q]).length = I + 1 := by simp; omega
  have hq1 : d.text[t.offset]? = some q := by
    rw [hsplit, List.append_assoc, List.append_assoc (pre ++ tag.front), List.getElem?_append_right (by simp; omega)]
    simp; rw [show t.offset - (pre.length + tag.front.length) = 0 by omega]; rfl
  have hq2 : d.text[t.stop - 1]? = some q := by
    rw [hsplit, List.getElem?_append_right (by simp; omega)]
    rw [show t.stop - 1 - (pre ++ tag.front ++ [q] ++ w).length = 0 by simp; omega]; rfl
  have hcs : contentStop d.text t = I + 1 + w.length := by
    unfold contentStop
    rw [hq1, hq2, if_pos rfl]; omega
  obtain ⟨n', y', a, b, parts, values, m1, m2, m3, m4, m5, rfl, -, m6, m7⟩ :=
    D.values_in_quotes (pre := p ++ [ky, eq]) (t := t) (post := post) hu (by simp) g6
      (by rw [hq1]; rcases hq with rfl | rfl <;> simp) (by omega) (by omega) ho hr
  have e1 : y' = ky := lastName_unique m5 ⟨p, [eq], by simp, g2, by simp [g4]⟩
  have e4 : n' = n := D.same_tag m1 n1 (x := t.stop) (by omega) m3 (by omega) (by omega)
  rw [e1, e4, n3, g3] at m7
  rw [hcs] at m6
  have hlo := m6.lo_le
  have hle := m6.le
  have hge := m6.ge
  have hhi := m6.le_hi
  have hmax : max (I + 1 + w.length) o = I + 1 + w.length := by omega
  rw [hmax] at hhi
  have hget : ∀ j, I + 1 ≤ j → j < I + 1 + w.length → d.text[j]? = w[j - (I + 1)]? := by
    intro j h1 h2
    rw [hsplit, getElem?_mid (by omega) (by omega), hpl]
  obtain ⟨w1, x, w2, hw, hl1, hl2⟩ : ∃ w1 x w2, w = w1 ++ x ++ w2 ∧ w1.length = a - (I + 1) ∧ x.length = b - a := by
    refine ⟨w.take (a - (I + 1)), (w.drop (a - (I + 1))).take (b - a), (w.drop (a - (I + 1))).drop (b - a), ?_, ?_, ?_⟩
    · rw [List.append_assoc, List.take_append_drop, List.take_append_drop]
    · rw [List.length_take]; omega
    · rw [List.length_take, List.length_drop]; omega
  refine ⟨w1, x, w2, hw, ⟨by omega, by omega, ?_, ?_, ?_⟩, ?_⟩
  · intro c hcx
    obtain ⟨j, hj⟩ := List.getElem?_of_mem hcx
    have hj2 : j < x.length := (List.getElem?_eq_some_iff.1 hj).1
    refine m6.inner (a + j) c (by omega) (by omega) ?_
    rw [hget _ (by omega) (by omega), hw, getElem?_mid (by omega) (by omega), ← hj]
    congr 1
    omega
  · intro c hcl
    have hne : w1 ≠ [] := by rintro rfl; cases hcl
    have hpos := List.length_pos_iff.2 hne
    rcases m6.left with hx | ⟨c', hx, hx2⟩
    · omega
    · rw [hget _ (by omega) (by omega), hw, List.append_assoc, List.getElem?_append_left (by omega),
        show a - 1 - (I + 1) = w1.length - 1 by omega, ← List.getLast?_eq_getElem?, hcl] at hx
      cases hx
      exact hx2
  · intro c hcl
    cases w2 with
    | nil => cases hcl
    | cons c2 w2 =>
      cases hcl
      have hwl : w.length = w1.length + x.length + (w2.length + 1) := by rw [hw]; simp; omega
      rcases m6.right with hx | ⟨c', hx, hx2⟩
      · omega
      · rw [hget _ (by omega) (by omega), hw, List.getElem?_append_right (by simp; omega),
          show b - (I + 1) - (w1 ++ x).length = 0 by simp; omega] at hx
        cases hx
        exact hx2
  · intro k hk
    obtain ⟨i, i1, i2, i3⟩ := mem_edits (l := values) (x := k.name) (by rw [m7]; exact List.mem_map_of_mem hk)
    refine ⟨i, List.mem_append_right _ i1, i2, _, i3, ?_⟩
    have hs2 : d.text = (pre ++ tag.front ++ [q] ++ w1) ++ x ++
        (w2 ++ [q] ++ (printAttrs tag.after ++ tag.back ++ (b!">" ++ y))) := by
      rw [hsplit, hw]; simp
    have ha : a = (pre ++ tag.front ++ [q] ++ w1).length := by simp; omega
    have hb : b = (pre ++ tag.front ++ [q] ++ w1).length + x.length := by rw [← ha]; omega
    have hnx := asciiNext_of_utf8 hu
    have hba : isBoundary d.text a = true := by
      rw [show a = (a - 1) + 1 by omega]
      rcases m6.left with hx | ⟨c', hx, hx2⟩
      · exact hnx (a - 1) q (by rw [← hq1]; congr 1; omega) (by omega)
      · exact hnx (a - 1) c' hx (by unfold BlankByte at hx2; omega)
    have hbb : isBoundary d.text b = true := by
      rcases m6.right with hx | ⟨c', hx, hx2⟩
      · exact isBoundary_ascii (b := q) (by rw [← hq2]; congr 1; omega) (by omega)
      · exact isBoundary_ascii hx (by unfold BlankByte at hx2; omega)
    have := applyEdits_one hd (w := k.name) hs2 (by rw [← ha]; exact hba) (by rw [← hb]; exact hbb)
    rw [← hb, ← ha] at this
    rw [this, TagHole.print_fill]
    simp

end Html
