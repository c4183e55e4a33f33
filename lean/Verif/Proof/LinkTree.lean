import Verif.Spec.LinkTree
import Verif.Proof.AcceptValue
import Verif.Proof.TagProposals
import Verif.Props.Links
import Verif.Props.FoldTree

/-! # Document links and the attributes of the tree -/

namespace Html
open Spec Props

variable {u : Uni} {cs : Bool} {void : List Str} {src : Str} {roots : List Node} {ts : List Tok}

/-! ### Reading one start tag -/

/-- What a token that starts no tag adds to the current start tag. -/
def infoStep (src : Str) (r : TagInfo × Option Str) (t : Tok) : TagInfo × Option Str :=
  match t.type with
  | .StartTag => ({ r.1 with tag := some (text src t) }, r.2)
  | .AttributeName =>
    ({ r.1 with attributes := attrInsert r.1.attributes (text src t) ⟨none, t.offset⟩ }, some (text src t))
  | .DelimiterAssign => (Spec.setValue (r.2.getD []) [] r.1, r.2)
  | .AttributeValue => (Spec.setValue (r.2.getD []) (text src t) r.1, r.2)
  | _ => r

theorem modifyLast_snoc {α : Type} (f : α → α) (a : List α) (x : α) : modifyLast f (a ++ [x]) = a ++ [f x] := by
  obtain ⟨i, y, h1, h2⟩ := modifyLast_eq f (a ++ [x]) (by simp)
  obtain ⟨rfl, h3⟩ := List.append_inj' h1 rfl
  cases h3
  exact h2

theorem readTag_infoStep {a : List TagInfo} {i : TagInfo} {q : Option Str} {t : Tok} (h : t.type ≠ .StartTagOpen) :
    readTag src (a ++ [i], q) t = (a ++ [(infoStep src (i, q) t).1], (infoStep src (i, q) t).2) := by
  unfold readTag infoStep
  cases hk : t.type <;> simp only [modifyLast_snoc] <;> first | rfl | exact absurd hk h

theorem readTag_infoSteps (l : List Tok) {a : List TagInfo} {i : TagInfo} {q : Option Str}
    (h : ∀ t ∈ l, t.type ≠ .StartTagOpen) :
    l.foldl (readTag src) (a ++ [i], q) =
      (a ++ [(l.foldl (infoStep src) (i, q)).1], (l.foldl (infoStep src) (i, q)).2) := by
  induction l generalizing i q with
  | nil => rfl
  | cons t l ih =>
    rw [List.foldl_cons, List.foldl_cons, readTag_infoStep (h t (by simp)), ih fun x hx => h x (by simp [hx])]

theorem setValue_start (k v : Str) (i : TagInfo) : (Spec.setValue k v i).start = i.start := by
  unfold Spec.setValue; split <;> rfl

theorem infoSteps_start (l : List Tok) (r : TagInfo × Option Str) : (l.foldl (infoStep src) r).1.start = r.1.start := by
  induction l generalizing r with
  | nil => rfl
  | cons t l ih =>
    rw [List.foldl_cons, ih]
    unfold infoStep
    split <;> first | rfl | exact setValue_start ..

theorem attrGet_insert_ne {m : List (Str × Attr)} {k k2 : Str} {v : Attr} (h : k2 ≠ k) :
    attrGet (attrInsert m k v) k2 = attrGet m k2 := by
  induction m with
  | nil => simp [attrInsert, attrGet, Ne.symm h]
  | cons x m ih =>
    simp only [attrInsert]
    split
    · rename_i hx; simp [attrGet, hx, Ne.symm h]
    · simp [attrGet, ih]

theorem attrGet_setValue {k v : Str} {i : TagInfo} {a : Attr} (h : attrGet i.attributes k = some a) :
    attrGet (Spec.setValue k v i).attributes k = some { a with value := some v } := by
  unfold Spec.setValue
  rw [h]
  exact attrGet_insert ..

theorem attrGet_setValue_ne {k k2 v : Str} {i : TagInfo} (h : k2 ≠ k) :
    attrGet (Spec.setValue k v i).attributes k2 = attrGet i.attributes k2 := by
  unfold Spec.setValue
  split
  · exact attrGet_insert_ne h
  · rfl

/-- Tokens that say nothing about attributes. -/
theorem infoSteps_quiet (l : List Tok) (r : TagInfo × Option Str) (k : Str)
    (h : ∀ t ∈ l, t.type ≠ .AttributeName ∧ t.type ≠ .DelimiterAssign ∧ t.type ≠ .AttributeValue) :
    attrGet (l.foldl (infoStep src) r).1.attributes k = attrGet r.1.attributes k ∧
      (l.foldl (infoStep src) r).2 = r.2 := by
  induction l generalizing r with
  | nil => exact ⟨rfl, rfl⟩
  | cons t l ih =>
    obtain ⟨h1, h2⟩ := ih (infoStep src r t) fun x hx => h x (by simp [hx])
    obtain ⟨g1, g2, g3⟩ := h t (by simp)
    rw [List.foldl_cons, h1, h2]
    unfold infoStep
    split <;> first | exact ⟨rfl, rfl⟩ | contradiction

/-- The attribute `k` is as it was, or it has been written again behind `lo`. -/
def KeptAttr (k v : Str) (o lo : Nat) (r : TagInfo × Option Str) : Prop :=
  ∃ a, attrGet r.1.attributes k = some a ∧
    ((a = ⟨some v, o⟩ ∧ ∃ k2, r.2 = some k2 ∧ k2 ≠ k) ∨ (lo ≤ a.offset ∧ r.2.isSome))

theorem KeptAttr.name {k v : Str} {o lo : Nat} {r : TagInfo × Option Str} {a : Attr}
    (ha : attrGet r.1.attributes k = some a) (hk : a = ⟨some v, o⟩ ∨ lo ≤ a.offset) {t : Tok}
    (ht : t.type = .AttributeName) (hlo : lo ≤ t.offset) : KeptAttr k v o lo (infoStep src r t) := by
  unfold infoStep
  rw [ht]
  by_cases he : k = text src t
  · exact ⟨⟨none, t.offset⟩, by rw [he]; exact attrGet_insert .., .inr ⟨hlo, rfl⟩⟩
  · refine ⟨a, (attrGet_insert_ne he).trans ha, ?_⟩
    rcases hk with hk | hk
    · exact .inl ⟨hk, _, rfl, Ne.symm he⟩
    · exact .inr ⟨hk, rfl⟩

theorem KeptAttr.set {k v : Str} {o lo : Nat} {r : TagInfo × Option Str} (h : KeptAttr k v o lo r) (w : Str) :
    KeptAttr k v o lo (Spec.setValue (r.2.getD []) w r.1, r.2) := by
  obtain ⟨a, ha, hk⟩ := h
  cases hq : r.2 with
  | none => rcases hk with ⟨_, k2, h2, _⟩ | ⟨_, h2⟩ <;> rw [hq] at h2 <;> cases h2
  | some q =>
    rw [Option.getD_some]
    by_cases he : k = q
    · subst he
      rcases hk with ⟨_, k2, h2, h3⟩ | ⟨h2, _⟩
      · rw [hq] at h2; cases h2; exact absurd rfl h3
      · exact ⟨_, attrGet_setValue ha, .inr ⟨h2, rfl⟩⟩
    · refine ⟨a, (attrGet_setValue_ne he).trans ha, ?_⟩
      rcases hk with ⟨h2, _⟩ | ⟨h2, _⟩
      · exact .inl ⟨h2, q, rfl, Ne.symm he⟩
      · exact .inr ⟨h2, rfl⟩

theorem KeptAttr.steps {k v : Str} {o lo : Nat} (l : List Tok) {r : TagInfo × Option Str} (h : KeptAttr k v o lo r)
    (hl : ∀ t ∈ l, lo ≤ t.offset) : KeptAttr k v o lo (l.foldl (infoStep src) r) := by
  induction l generalizing r with
  | nil => exact h
  | cons t l ih =>
    rw [List.foldl_cons]
    refine ih ?_ fun x hx => hl x (by simp [hx])
    cases hk : t.type
    case AttributeName =>
      obtain ⟨a, ha, h1⟩ := h
      exact KeptAttr.name ha (h1.imp (·.1) (·.1)) hk (hl t (by simp))
    case DelimiterAssign => unfold infoStep; rw [hk]; exact h.set _
    case AttributeValue => unfold infoStep; rw [hk]; exact h.set _
    all_goals (unfold infoStep; rw [hk]; exact h)

mutual
theorem infoNode_node : ∀ (n : Node) {i : TagInfo}, i ∈ infoNode n →
    ∃ m, (m = n ∨ InForest n.children m) ∧ m.info = i
  | ⟨tag, start, stop, children, e1, e2, cl, attrs⟩, i, h => by
    rw [infoNode] at h
    rcases List.mem_cons.1 h with h | h
    · exact ⟨_, .inl rfl, by rw [h]; rfl⟩
    · obtain ⟨m, h1, h2⟩ := infos_node children h
      exact ⟨m, .inr h1, h2⟩
theorem infos_node : ∀ (l : List Node) {i : TagInfo}, i ∈ infos l → ∃ m, InForest l m ∧ m.info = i
  | [], _, h => by simp [infos] at h
  | n :: ns, i, h => by
    rw [infos] at h
    rcases List.mem_append.1 h with h | h
    · obtain ⟨m, h1, h2⟩ := infoNode_node n h
      rcases h1 with h1 | h1
      · exact ⟨m, .root (by simp [h1]), h2⟩
      · exact ⟨m, inForest_below (.root (by simp)) h1, h2⟩
    · obtain ⟨m, h1, h2⟩ := infos_node ns h
      exact ⟨m, inForest_sub h1 (fun x hx => by simp [hx]), h2⟩
end

/-! ### The tokens of an attribute with a value -/

theorem Doc.value_parts (h : Doc u cs void src roots ts) {pre post : List Tok} {t : Tok} (hts : ts = pre ++ t :: post)
    (hk : t.type = .AttributeValue) :
    ∃ p y w e, pre = p ++ y :: (w ++ [e]) ∧ y.type = .AttributeName ∧ (∀ z ∈ w, z.type = .Whitespace) ∧
      e.type = .DelimiterAssign := by
  have hg := h.grammar hts
  rw [hk] at hg
  have hg1 := hg.1
  rw [List.getLast?_map] at hg1
  cases hl : pre.getLast? with
  | none => rw [hl] at hg1; cases hg1
  | some e =>
    rw [hl] at hg1
    simp only [Option.map_some, Option.some.injEq] at hg1
    obtain ⟨q, hq⟩ := List.getLast?_eq_some_iff.1 hl
    have := h.grammar (pre := q) (t := e) (post := t :: post) (by rw [hts, hq]; simp)
    rw [hg1] at this
    obtain ⟨p, y, w, h1, h2, h3⟩ := lastNonWs_split this.1
    exact ⟨p, y, w, e, by rw [hq, h1]; simp, h2, h3, hg1⟩

theorem drop_slice {src : Str} {a b : Nat} (h : a ≤ b) : src.drop a = (src.take b).drop a ++ src.drop b := by
  rw [List.drop_take]
  have := List.take_append_drop (b - a) (src.drop a)
  rw [List.drop_drop, show a + (b - a) = b by omega] at this
  exact this.symm

theorem Doc.value_written (h : Doc u cs void src roots ts) {p w post : List Tok} {y e t : Tok}
    (hts : ts = p ++ y :: (w ++ [e]) ++ t :: post) (hw : ∀ z ∈ w, z.type = .Whitespace)
    (he : e.type = .DelimiterAssign) : WrittenAt src (text src y) (text src t) y.offset t.offset := by
  have hc := h.contiguous
  have hlen := (contiguous_le hc).2
  have hmem : ∀ z ∈ p ++ y :: (w ++ [e]) ++ t :: post, z ∈ ts := fun z hz => by rw [hts]; exact hz
  rw [hts, show p ++ y :: (w ++ [e]) ++ t :: post = p ++ (y :: (w ++ (e :: t :: post))) by simp] at hc
  obtain ⟨_, _, ⟨_, hy, hc⟩, _⟩ := contiguous_split hc
  obtain ⟨m, hcw, ⟨e1, e2, t1, t2, _⟩, hym⟩ := contiguous_split hc
  subst e1
  have hok := h.textOK (hmem e (by simp))
  unfold TextOK at hok
  rw [he] at hok
  have het : text src e = b!"=" := hok
  have hyl := text_len (hlen y (hmem y (by simp)))
  have hel := text_len (hlen e (hmem e (by simp)))
  rw [het] at hel
  have hle := hlen e (hmem e (by simp))
  have hsl : ((src.take e.offset).drop y.stop).length = e.offset - y.stop := by simp; omega
  refine ⟨(src.take e.offset).drop y.stop, fun b hb => ?_, ⟨src.drop t.stop, ?_⟩, ?_⟩
  · obtain ⟨i, hi, rfl⟩ := List.mem_iff_getElem.1 hb
    rw [hsl] at hi
    obtain ⟨z, hz, z1, z2⟩ := contiguous_cover hcw (i := y.stop + i) (by omega) (by omega)
    have hok := h.textOK (hmem z (by simp [hz]))
    unfold TextOK at hok
    rw [hw z hz] at hok
    refine hok.2 _ ?_
    have := hlen z (hmem z (by simp [hz]))
    refine List.mem_iff_getElem.2 ⟨y.stop + i - z.offset, by rw [text_len this]; omega, ?_⟩
    simp only [text, List.getElem_drop, List.getElem_take]
    congr 1
    omega
  · rw [drop_slice hy, drop_slice hym, drop_slice e2, ← t1, drop_slice t2, ← het]
    simp [text, t1]
  · simp only [List.length_append, hyl, hsl]
    rw [t1]
    simp only [List.length_singleton, List.length_cons, List.length_nil] at hel ⊢
    omega

/-- In which start tag a value is, and what became of its attribute. -/
theorem Doc.value_node (h : Doc u cs void src roots ts) {pre post : List Tok} {t : Tok} (hts : ts = pre ++ t :: post)
    (hk : t.type = .AttributeValue) :
    ∃ n p t0 mid y a, InForest roots n ∧ pre = p ++ t0 :: mid ∧ t0.type = .StartTagOpen ∧ t0.offset = n.start ∧
      n.tag = lastText .StartTag src mid none ∧ LastName pre y ∧ n.start < y.offset ∧ y.stop < t.offset ∧
      t.stop ≤ n.startTagEnd.getD n.stop ∧ WrittenAt src (text src y) (text src t) y.offset t.offset ∧
      (text src y, a) ∈ n.attributes ∧ (a = ⟨some (text src t), y.offset⟩ ∨ t.stop ≤ a.offset) := by
  have hg := h.grammar hts
  rw [hk] at hg
  have hc := h.contiguous
  obtain ⟨p1, y, w, e, h1, h2, h3, h4⟩ := h.value_parts hts hk
  have hwr := h.value_written (by rw [hts, h1]) h3 h4
  have hnl : lastNonWs (pre.map Tok.type) ≠ some .StartTagOpen := by
    rw [h1, show p1 ++ y :: (w ++ [e]) = (p1 ++ y :: w) ++ [e] by simp, List.map_append, List.map_singleton, h4,
      lastNonWs_append]
    simp
  have htt : t.offset < t.stop := by
    have hok := h.textOK (t := t) (by rw [hts]; simp)
    have hl := text_len ((contiguous_le hc).2 t (by rw [hts]; simp))
    unfold TextOK at hok
    rw [hk] at hok
    have : (text src t) ≠ [] := by
      intro h0
      dsimp only at hok
      rw [h0] at hok
      rcases hok with hok | hok
      · unfold QuotedValue at hok; simp at hok
      · unfold UnquotedValue at hok; simp at hok
    have := List.length_pos_iff.2 this
    omega
  obtain ⟨n, _, p, t0, mid, _, g2, g3, g4, g5, g6, g7, g8, g9⟩ := h.in_tag (o := t.stop) hts hg.2 (by rw [hk]; rfl)
    htt (Nat.le_refl _)
  obtain ⟨y', y1, y2, _⟩ := last_name (src := src) g3 g4 (.inr ⟨(p1 ++ y :: w, e), by rw [h1]; simp, h4, by
    have := h.grammar (pre := p1 ++ y :: w) (t := e) (post := t :: post) (by rw [hts, h1]; simp)
    rw [h4] at this
    exact this.1⟩)
  have hyy : LastName pre y := ⟨p1, w ++ [e], h1, h2, fun z hz => by
    rcases List.mem_append.1 hz with hz | hz
    · rw [h3 z hz]; decide
    · rw [List.mem_singleton.1 hz, h4]; decide⟩
  -- the name is in the same tag
  obtain ⟨m1, hm1⟩ : ∃ m1, mid = m1 ++ y :: (w ++ [e]) := by
    have e1 := g3.symm.trans h1
    rcases List.append_eq_append_iff.1 e1 with ⟨a, e2, e3⟩ | ⟨a, e2, e3⟩
    · cases a with
      | nil =>
        simp only [List.nil_append, List.cons.injEq] at e3
        rw [e3.1, h2] at g4; cases g4
      | cons z a =>
        simp only [List.cons_append, List.cons.injEq] at e3
        exact ⟨a, e3.2⟩
    · exfalso
      cases a with
      | nil =>
        simp only [List.nil_append, List.cons.injEq] at e3
        rw [← e3.1, h2] at g4; cases g4
      | cons z a =>
        simp only [List.cons_append, List.cons.injEq] at e3
        have : t0 ∈ w ++ [e] := by rw [e3.2]; simp
        rcases List.mem_append.1 this with hz | hz
        · rw [h3 _ hz] at g4; cases g4
        · rw [List.mem_singleton.1 hz, h4] at g4; cases g4
  have hcl : ∀ z ∈ post, t.stop ≤ z.offset := by
    rw [hts] at hc
    obtain ⟨_, _, ⟨_, _, hc⟩, _⟩ := contiguous_split hc
    exact fun z hz => contiguous_ge hc hz
  obtain ⟨l, post', hp1, hp2, hp3⟩ := split_first .StartTagOpen post
  obtain ⟨l1, l2, hl1, hl2, hl3⟩ := split_first .AttributeName l
  -- the fold
  obtain ⟨ts', k1, k2⟩ := C18_start_tags_exact u cs void src roots h.parse
  rw [h.tokens] at k1; cases k1
  have hts2 : ts = p ++ t0 :: (m1 ++ y :: (w ++ (e :: t :: (l1 ++ (l2 ++ post'))))) := by
    rw [hts, g3, hm1, hp1, hl1]; simp
  rw [hts2, List.foldl_append, List.foldl_cons] at k2
  generalize p.foldl (readTag src) ([], none) = r0 at k2
  have k3 : readTag src r0 t0 = (r0.1 ++ [⟨t0.offset, none, []⟩], r0.2) := by unfold readTag; rw [g4]
  have hall : ∀ z ∈ m1 ++ y :: (w ++ (e :: t :: (l1 ++ l2))), z.type ≠ .StartTagOpen := by
    intro z hz h0
    have hb : ∀ z ∈ mid, isBracket z.type = false := g8
    simp only [List.mem_append, List.mem_cons] at hz
    have hmid : z ∈ mid → False := fun hz => by have := hb z hz; rw [h0] at this; cases this
    rcases hz with hz | rfl | hz | rfl | rfl | hz | hz
    · exact hmid (by rw [hm1]; simp [hz])
    · exact hmid (by rw [hm1]; simp)
    · exact hmid (by rw [hm1]; simp [hz])
    · exact hmid (by rw [hm1]; simp)
    · rw [hk] at h0; cases h0
    · exact hp2 z (by rw [hl1]; simp [hz]) h0
    · exact hp2 z (by rw [hl1]; simp [hz]) h0
  rw [k3, show m1 ++ y :: (w ++ (e :: t :: (l1 ++ (l2 ++ post')))) = (m1 ++ y :: (w ++ (e :: t :: (l1 ++ l2)))) ++ post'
    by simp, List.foldl_append, readTag_infoSteps _ hall] at k2
  -- the info of the tag
  have hquiet : ∀ z ∈ l1, z.type ≠ .AttributeName ∧ z.type ≠ .DelimiterAssign ∧ z.type ≠ .AttributeValue := by
    have hda : ∀ z ∈ l1, z.type ≠ .DelimiterAssign := by
      intro z hz h0
      obtain ⟨x1, x2, rfl⟩ := List.append_of_mem hz
      have := h.grammar (pre := pre ++ t :: x1) (t := z) (post := x2 ++ l2 ++ post') (by rw [hts, hp1, hl1]; simp)
      rw [h0] at this
      obtain ⟨b1, b, b2, b3, b4, b5⟩ := lastNonWs_split this.1
      rcases List.append_eq_append_iff.1 b3 with ⟨a, e2, e3⟩ | ⟨a, e2, e3⟩
      · cases a with
        | nil =>
          simp only [List.nil_append, List.cons.injEq] at e3
          rw [← e3.1, hk] at b4; cases b4
        | cons z' a =>
          simp only [List.cons_append, List.cons.injEq] at e3
          exact hl2 b (by rw [e3.2]; simp) b4
      · cases a with
        | nil =>
          simp only [List.nil_append, List.cons.injEq] at e3
          rw [e3.1, hk] at b4; cases b4
        | cons z' a =>
          simp only [List.cons_append, List.cons.injEq] at e3
          have := b5 t (by rw [e3.2]; simp)
          rw [hk] at this; cases this
    refine fun z hz => ⟨hl2 z hz, hda z hz, fun h0 => ?_⟩
    obtain ⟨x1, x2, rfl⟩ := List.append_of_mem hz
    have := h.grammar (pre := pre ++ t :: x1) (t := z) (post := x2 ++ l2 ++ post') (by rw [hts, hp1, hl1]; simp)
    rw [h0] at this
    have h5 := this.1
    rw [List.getLast?_map, List.getLast?_append] at h5
    rcases List.eq_nil_or_concat x1 with rfl | ⟨x0, x, rfl⟩
    · simp [hk] at h5
    · simp only [List.concat_eq_append] at *
      rw [show t :: (x0 ++ [x]) = (t :: x0) ++ [x] by simp, List.getLast?_append] at h5
      simp at h5
      exact hda x (by simp) h5
  have hattr : ∃ a, attrGet ((m1 ++ y :: (w ++ (e :: t :: (l1 ++ l2)))).foldl (infoStep src)
      (⟨t0.offset, none, []⟩, r0.2)).1.attributes (text src y) = some a ∧
      (a = ⟨some (text src t), y.offset⟩ ∨ t.stop ≤ a.offset) := by
    rw [List.foldl_append, List.foldl_cons, List.foldl_append, List.foldl_cons, List.foldl_cons, List.foldl_append]
    generalize m1.foldl (infoStep src) (⟨t0.offset, none, []⟩, r0.2) = r1
    have a1 : attrGet (infoStep src r1 y).1.attributes (text src y) = some ⟨none, y.offset⟩ ∧
        (infoStep src r1 y).2 = some (text src y) := by
      unfold infoStep; rw [h2]; exact ⟨attrGet_insert .., rfl⟩
    generalize infoStep src r1 y = r2 at a1
    obtain ⟨a2, a3⟩ := infoSteps_quiet (src := src) w r2 (text src y) (fun z hz => by rw [h3 z hz]; decide)
    generalize w.foldl (infoStep src) r2 = r3 at a2 a3
    rw [a1.1] at a2
    rw [a1.2] at a3
    have a4 : attrGet (infoStep src r3 e).1.attributes (text src y) = some ⟨some [], y.offset⟩ ∧
        (infoStep src r3 e).2 = some (text src y) := by
      unfold infoStep; rw [h4]; dsimp only; rw [a3]; exact ⟨attrGet_setValue a2, rfl⟩
    generalize infoStep src r3 e = r4 at a4
    have a5 : attrGet (infoStep src r4 t).1.attributes (text src y) = some ⟨some (text src t), y.offset⟩ := by
      unfold infoStep; rw [hk]; dsimp only; rw [a4.2]; exact attrGet_setValue a4.1
    generalize infoStep src r4 t = r5 at a5
    obtain ⟨a6, _⟩ := infoSteps_quiet (src := src) l1 r5 (text src y) hquiet
    generalize l1.foldl (infoStep src) r5 = r6 at a6
    rw [a5] at a6
    cases l2 with
    | nil => exact ⟨_, a6, .inl rfl⟩
    | cons x l2 =>
      have hx : ∀ z ∈ x :: l2, t.stop ≤ z.offset := fun z hz =>
        hcl z (by rw [hp1, hl1]; simp only [List.mem_append]; exact .inl (.inr hz))
      obtain ⟨a, b1, b2⟩ := KeptAttr.steps (src := src) l2 (KeptAttr.name (src := src) (v := text src t) (o := y.offset)
        (lo := t.stop) a6 (.inl rfl) (hl3 x l2 rfl) (hx x (by simp))) fun z hz => hx z (by simp [hz])
      exact ⟨a, b1, b2.imp (·.1) (·.1)⟩
  obtain ⟨a, ha1, ha2⟩ := hattr
  have hst := infoSteps_start (src := src) (m1 ++ y :: (w ++ (e :: t :: (l1 ++ l2)))) (⟨t0.offset, none, []⟩, r0.2)
  generalize (m1 ++ y :: (w ++ (e :: t :: (l1 ++ l2)))).foldl (infoStep src) (⟨t0.offset, none, []⟩, r0.2) = rr at *
  have hin : rr.1 ∈ infos roots := by
    rw [k2]
    cases post' with
    | nil => simp
    | cons x q =>
      have hx := hp3 x q rfl
      rw [List.foldl_cons]
      obtain ⟨b, hb⟩ := readTag_keep (src := src) q (readTag src (r0.1 ++ [rr.1], rr.2) x) (r0.1 ++ [rr.1])
        [⟨x.offset, none, []⟩] (by unfold readTag; rw [hx]) (by simp)
      rw [hb]; simp
  obtain ⟨m, c1, c2⟩ := infos_node roots hin
  have hmn : m = n := start_unique h.parse c1 g2 (by
    have : m.start = rr.1.start := by rw [← c2]; rfl
    rw [this, hst, ← g5])
  subst hmn
  have hmem : (text src y, a) ∈ m.attributes := by
    have : m.attributes = rr.1.attributes := by rw [← c2]; rfl
    rw [this]
    exact attrGet_mem ha1
  have hc2 := hc
  rw [hts2] at hc2
  obtain ⟨_, _, ⟨_, _, hc2⟩, _⟩ := contiguous_split hc2
  have n0 := h.nonempty (t := t0) (by rw [hts2]; simp) (.inl g4)
  have o1 := contiguous_ge hc2 (t := y) (by simp)
  obtain ⟨_, _, ⟨_, _, hc2⟩, _⟩ := contiguous_split hc2
  obtain ⟨_, _, ⟨e1, e2, t1, _⟩, o2⟩ := contiguous_split hc2
  have hes : e.offset < e.stop := by
    have hok := h.textOK (t := e) (by rw [hts2]; simp)
    have hl := text_len ((contiguous_le hc).2 e (by rw [hts2]; simp))
    unfold TextOK at hok
    rw [h4] at hok
    have : text src e = b!"=" := hok
    rw [this] at hl
    simp at hl; omega
  exact ⟨m, p, t0, mid, y, a, g2, g3, g4, g5, g9 hnl, hyy, by omega, by omega, g7, hwr, hmem, ha2⟩

/-! ### A tag without a name has no attributes -/

theorem lastText_eq (k : TT) (l : List Tok) (q : Option Str) :
    lastText k src l q = ((lastOf k l).map (text src)).or q := by
  induction l generalizing q with
  | nil => simp [lastText, lastOf]
  | cons t l ih =>
    rw [lastText, ih]
    unfold lastOf
    by_cases hk : t.type = k
    · rw [if_pos hk, List.filter_cons_of_pos (by simpa using hk)]
      rw [show t :: l.filter (fun t => t.type = k) = [t] ++ l.filter (fun t => t.type = k) by rfl, List.getLast?_append]
      cases (l.filter (fun t => t.type = k)).getLast? <;> simp
    · rw [if_neg hk, List.filter_cons_of_neg (by simpa using hk)]

/-- There is no name behind the last `<`. -/
def NoName (h : List TT) : Prop := ∃ p m, h = p ++ .StartTagOpen :: m ∧ ∀ k ∈ m, k ≠ .StartTag

theorem noName_snoc {h : List TT} {k : TT} (hn : NoName (h ++ [k])) : k = .StartTagOpen ∨ (k ≠ .StartTag ∧ NoName h) := by
  obtain ⟨p, m, h1, h2⟩ := hn
  rcases List.eq_nil_or_concat m with rfl | ⟨m', x, rfl⟩
  · left
    have := (List.append_inj' h1 rfl).2
    simpa using this
  · right
    simp only [List.concat_eq_append] at *
    have h3 : h ++ [k] = (p ++ .StartTagOpen :: m') ++ [x] := by rw [h1]; simp
    obtain ⟨rfl, h4⟩ := List.append_inj' h3 rfl
    simp at h4
    subst h4
    exact ⟨h2 k (by simp), p, m', rfl, fun z hz => h2 z (by simp [hz])⟩

theorem Run.has_name {c : Cfg} {s s2 : Sc} {ts : List Tok} (h : Run c s ts s2) {hist : List TT}
    (hg : NoName hist → Nameless c s ∨ s.state.inStart = false) {pre post : List Tok} {t : Tok}
    (ht : ts = pre ++ t :: post) (hk : t.type = .AttributeName) : ¬ NoName (hist ++ pre.map Tok.type) := by
  induction h generalizing hist pre with
  | nil s => simp at ht
  | @cons s s1 s2 ts h hne hr ih =>
    have f := (scan_step h).startFacts hne
    cases pre with
    | nil =>
      simp at ht
      rw [← ht.1] at hk
      have hk : s1.tokenType = .AttributeName := hk
      have h1 : s1.state.inStart = true := by rw [(scan_step h).name_state hk]; rfl
      have h2 := (f.stay h1 (by rw [hk]; decide)).1
      intro h3
      rw [List.map_nil, List.append_nil] at h3
      rcases hg h3 with h4 | h4
      · exact (f.nameless h1 h4 (by rw [hk]; decide)).2 hk
      · rw [h4] at h2; cases h2
    | cons p pre =>
      simp at ht
      have := ih (hist := hist ++ [s1.tokenType]) ?_ ht.2
      · rw [← ht.1]
        simpa [Sc.tok] using this
      · intro h3
        cases h1 : s1.state.inStart
        · exact .inr rfl
        left
        rcases noName_snoc h3 with h4 | ⟨h4, h5⟩
        · exact .inl (f.enter h4).2.1
        · by_cases h6 : s1.tokenType = .StartTagOpen
          · exact .inl (f.enter h6).2.1
          · have h2 := (f.stay h1 h6).1
            rcases hg h5 with h7 | h7
            · exact (f.nameless h1 h7 h4).1
            · rw [h7] at h2; cases h2

theorem Doc.has_name (h : Doc u cs void src roots ts) {p mid post : List Tok} {t0 t y : Tok}
    (hts : ts = p ++ t0 :: mid ++ t :: post) (h0 : t0.type = .StartTagOpen) (hy : LastName (p ++ t0 :: mid) y)
    (hlt : t0.offset < y.offset) : ∃ tag, lastText .StartTag src mid none = some tag := by
  obtain ⟨b1, b2, b3, b4, _⟩ := hy
  have hc := h.contiguous
  rw [hts, b3] at hc
  obtain ⟨m1, hm1⟩ : ∃ m1, mid = m1 ++ y :: b2 := by
    rcases List.append_eq_append_iff.1 b3 with ⟨a, e2, e3⟩ | ⟨a, e2, e3⟩
    · cases a with
      | nil =>
        simp only [List.nil_append, List.cons.injEq] at e3
        rw [e3.1, b4] at h0; cases h0
      | cons z a =>
        simp only [List.cons_append, List.cons.injEq] at e3
        exact ⟨a, e3.2⟩
    · exfalso
      cases a with
      | nil =>
        simp only [List.nil_append, List.cons.injEq] at e3
        rw [← e3.1, b4] at h0; cases h0
      | cons z a =>
        simp only [List.cons_append, List.cons.injEq] at e3
        rw [e3.2] at hc
        simp only [List.append_assoc, List.cons_append] at hc
        obtain ⟨_, _, ⟨_, h5, hc⟩, _⟩ := contiguous_split hc
        have := contiguous_ge hc (t := t0) (by simp)
        omega
  obtain ⟨s2, r1, _⟩ := tokens_run h.tokens
  have hn := r1.has_name (hist := []) (by rintro ⟨p, m, h1, _⟩; simp at h1) (pre := p ++ t0 :: m1) (t := y)
    (post := b2 ++ t :: post) (by rw [hts, hm1]; simp) b4
  cases hl : lastText .StartTag src mid none with
  | some x => exact ⟨x, rfl⟩
  | none =>
    exfalso
    refine hn ⟨p.map Tok.type, m1.map Tok.type, by simp [h0], fun k hk => ?_⟩
    obtain ⟨z, hz, rfl⟩ := List.mem_map.1 hk
    intro hzt
    rw [lastText_eq, Option.or_none, Option.map_eq_none_iff] at hl
    unfold lastOf at hl
    rw [List.getLast?_eq_none_iff, List.filter_eq_nil_iff] at hl
    exact hl z (by rw [hm1]; simp [hz]) (by simpa using hzt)

/-! ### The links -/

theorem lastOf_append (k : TT) (a b : List Tok) : lastOf k (a ++ b) = (lastOf k b).or (lastOf k a) := by
  unfold lastOf
  rw [List.filter_append, List.getLast?_append]

theorem lastOf_name {pre : List Tok} {y : Tok} (h : LastName pre y) : lastOf .AttributeName pre = some y := by
  obtain ⟨p, mid, rfl, h2, h3⟩ := h
  have : mid.filter (fun t => t.type = TT.AttributeName) = [] := by
    rw [List.filter_eq_nil_iff]
    intro z hz
    simpa using h3 z hz
  unfold lastOf
  rw [List.filter_append, List.filter_cons_of_pos (by simpa using h2), this]
  simp

theorem lastOf_tag {p mid : List Tok} {t0 : Tok} {tag : Str} (h : some tag = lastText .StartTag src mid none) :
    ∃ z, lastOf .StartTag (p ++ t0 :: mid) = some z ∧ text src z = tag := by
  rw [lastText_eq, Option.or_none] at h
  obtain ⟨z, h1, h2⟩ := Option.map_eq_some_iff.1 h.symm
  refine ⟨z, ?_, h2⟩
  rw [show p ++ t0 :: mid = (p ++ [t0]) ++ mid by simp, lastOf_append, h1]
  rfl

theorem valueRange_eq {d : TextDoc} {t : Tok} (h : t.offset ≤ t.stop) (h2 : t.stop ≤ d.text.length) :
    valueRange d t = bareRange d t.offset (text d.text t) := by
  unfold valueRange bareRange
  rw [text_len h2, show t.offset + (t.stop - t.offset) = t.stop by omega]

/-- The name of a start tag is that of an element. -/
theorem Doc.tag_node (h : Doc u cs void src roots ts) {t : Tok} (ht : t ∈ ts) (hk : t.type = .StartTag) :
    ∃ n, InForest roots n ∧ n.tag = some (text src t) := by
  obtain ⟨pre, post, hts⟩ := List.append_of_mem ht
  have hg := h.grammar hts
  rw [hk] at hg
  obtain ⟨p, t0, w, h1, h2, h3⟩ := lastNonWs_split hg
  obtain ⟨l, post', hp1, hp2, hp3⟩ := split_first .StartTagOpen post
  obtain ⟨n, hn, hs⟩ := h.tok_node (t := t0) (by rw [hts, h1]; simp) h2
  have htag := h.tag_eq (pre := p) (mid := w ++ t :: l) (post := post') (t0 := t0) (n := n)
    (by rw [hts, h1, hp1]; simp) h2 hn hs (fun z hz => by
      simp only [List.mem_append, List.mem_cons] at hz
      rcases hz with hz | rfl | hz
      · rw [h3 z hz]; decide
      · rw [hk]; decide
      · exact hp2 z hz) hp3
  refine ⟨n, hn, ?_⟩
  rw [htag]
  refine lastText_last hk (fun z hz h0 => ?_) none
  obtain ⟨x1, x2, rfl⟩ := List.append_of_mem hz
  have hg := h.grammar (pre := pre ++ t :: x1) (t := z) (post := x2 ++ post') (by rw [hts, hp1]; simp)
  rw [h0] at hg
  obtain ⟨b1, b, b2, b3, b4, b5⟩ := lastNonWs_split hg
  rcases List.append_eq_append_iff.1 b3 with ⟨a, e2, e3⟩ | ⟨a, e2, e3⟩
  · cases a with
    | nil =>
      simp only [List.nil_append, List.cons.injEq] at e3
      rw [← e3.1, hk] at b4; cases b4
    | cons z' a =>
      simp only [List.cons_append, List.cons.injEq] at e3
      exact hp2 b (by rw [e3.2]; simp) b4
  · cases a with
    | nil =>
      simp only [List.nil_append, List.cons.injEq] at e3
      rw [e3.1, hk] at b4; cases b4
    | cons z' a =>
      simp only [List.cons_append, List.cons.injEq] at e3
      have := b5 t (by rw [e3.2]; simp)
      rw [hk] at this; cases this

end Html
