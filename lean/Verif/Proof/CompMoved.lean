import Verif.Proof.TypingMoved
import Verif.Proof.SelMoved
import Verif.Proof.CompletionTotal
import Verif.Spec.CompMoved

/-! # Proposals behind a complete text -/

namespace Html
open Spec

/-- The request `x'` is `x` behind the text `pre`. -/
structure CompCtx.Moves (pre : Str) (e : Pos) (x x' : CompCtx) : Prop where
  put : PutBehind pre e x.doc x'.doc
  env : x'.env = x.env
  position : x'.position = Pos.after e x.position
  offset : x'.offset = x.offset + pre.length
  node : x'.node = x.node.shift pre.length
  parents : x'.parents = Node.shifts pre.length x.parents
  data : ∀ ex m, Node.addDataAll ex x'.roots m = Node.addDataAll ex x.roots m
  last : pre.getLast? = some 62
  first : x.doc.text[0]? = some 10
  second : isBoundary x.doc.text 1 = true
  line : x.position.line ≠ 0
  pos : 1 ≤ x.offset
  starts : ∀ n ∈ x.node :: x.parents, 1 ≤ n.start
  parts : x.env.participants = []
  prov : ∀ q ∈ x.env.providers, ∀ t i j, q.provideAttributes t i = q.provideAttributes t j

section
variable {pre : Str} {e : Pos} {x x' : CompCtx} {d d' : TextDoc}

/-! ### Pieces -/

theorem scan_new_any {c : Cfg} {o k : Nat} {st : SS} (h : st = .WithinEndTag ∨ st = .AfterAttributeName) : scan c (.new (o + k) st) = scan c ((Sc.new o st).shift k) := by
  rw [scan_eq_internalScan, scan_eq_internalScan]
  rcases h with rfl | rfl <;> rfl

theorem scan_ok_behind {c : Cfg} {s s1 : Sc} (h : scan c s = .ok s1) :
    scan (c.behind pre) (s.shift pre.length) = .ok (s1.shift pre.length) := by
  rw [show scan (c.behind pre) (s.shift pre.length) = _ from scan_shift, h]
  rfl

theorem CompCtx.Moves.cfg (m : x.Moves pre e x') (b : Bool) : x'.env.cfg x'.doc b = (x.env.cfg x.doc b).behind pre := by
  rw [m.env]; exact cfg_behind m.put b

theorem CompCtx.Moves.range (m : x.Moves pre e x') (a b : Nat) :
    x'.replaceRange (a + pre.length) (b + pre.length) = Range.after e (x.replaceRange a b) := by
  unfold CompCtx.replaceRange
  rw [m.offset, Nat.add_min_add_right, m.put.range]

theorem CompCtx.Moves.slice (m : x.Moves pre e x') (a b : Nat) :
    sliceStr x'.doc.text (a + pre.length) (b + pre.length) = sliceStr x.doc.text a b := by
  rw [m.put.text, shift_slice]

theorem CompCtx.Moves.get (m : x.Moves pre e x') (a b : Nat) :
    getStr x'.doc.text (a + pre.length) (b + pre.length) = getStr x.doc.text a b := getStr_behind m.put

theorem CompCtx.Moves.get_first (m : x.Moves pre e x') : getStr x.doc.text 0 1 = some [10] := by
  have h1 := (List.getElem?_eq_some_iff.1 m.first).1
  have hb : isBoundary x.doc.text 0 = true := by
    unfold isBoundary
    rw [if_neg (by omega), m.first]
    rfl
  unfold getStr sliceStr
  rw [hb, m.second]
  cases ht : x.doc.text with
  | nil => rw [ht] at h1; simp at h1
  | cons b l =>
    have := m.first
    rw [ht] at this
    cases this
    simp [Except.toOption]

theorem CompCtx.Moves.get_last (m : x.Moves pre e x') {k : Nat} (hk : k + 1 = pre.length) :
    getStr x'.doc.text k (k + 1) = some [62] := by
  have h1 := (List.getElem?_eq_some_iff.1 m.first).1
  obtain ⟨l, rfl⟩ : ∃ l, pre = l ++ [62] := by
    have := m.last
    rw [List.getLast?_eq_some_iff] at this
    exact this
  rw [List.length_append, List.length_singleton] at hk
  have hk : k = l.length := by omega
  subst hk
  have e1 : x'.doc.text = l ++ 62 :: x.doc.text := by rw [m.put.text]; simp
  unfold getStr sliceStr
  have hb0 : isBoundary x'.doc.text l.length = true := by
    unfold isBoundary
    rw [e1, if_neg (by simp), List.getElem?_append_right (Nat.le_refl _), Nat.sub_self]
    rfl
  have hb1 : isBoundary x'.doc.text (l.length + 1) = true := by
    unfold isBoundary
    rw [e1, if_neg (by rw [List.length_append, List.length_cons]; omega), List.getElem?_append_right (by omega), Nat.add_sub_cancel_left, List.getElem?_cons_succ, m.first]
    rfl
  rw [hb0, hb1, e1]
  simp [Except.toOption, List.take_append]

theorem CompCtx.Moves.nextEnd (m : x.Moves pre e x') {s : Sc} {t : TT} {b : Nat} (h : x.nextEnd s t = .ok b) :
    x'.nextEnd (s.shift pre.length) t = .ok (b + pre.length) := by
  unfold CompCtx.nextEnd at h ⊢
  rw [m.offset, m.cfg]
  change (if x.offset + pre.length = s.pos + pre.length then _ else _) = _
  by_cases hq : x.offset = s.pos
  · rw [if_pos hq] at h
    rw [if_pos (by omega)]
    obtain ⟨s1, h1, h⟩ := bind_ok h
    cases h
    rw [scan_ok_behind h1]
    simp only [bind, Except.bind]
    change Except.ok (if s1.tokenType = t ∧ s1.tokenOffset + pre.length = x.offset + pre.length then s1.pos + pre.length else _) = _
    congr 1
    by_cases hr : s1.tokenType = t ∧ s1.tokenOffset = x.offset
    · rw [if_pos hr, if_pos ⟨hr.1, by omega⟩]
    · rw [if_neg hr, if_neg (fun h => hr ⟨h.1, by omega⟩)]
  · rw [if_neg hq] at h
    cases h
    rw [if_neg (by omega)]

theorem CompCtx.Moves.openTags (m : x.Moves pre e x') (a b : Nat) :
    x'.openTags (a + pre.length) (b + pre.length) = (x.openTags a b).map (CompItem.after e) := by
  unfold CompCtx.openTags
  rw [m.env, m.range, List.map_flatMap]
  congr 1
  funext p
  rw [List.map_map]
  rfl

theorem followedBy_ok {c : Cfg} {t : TT} {b : Bool} : ∀ {f g : Nat} {s : Sc}, f ≤ g → followedBy c t f s = .ok b →
    followedBy (c.behind pre) t g (s.shift pre.length) = .ok b
  | 0, _, _, _, h => by cases h
  | f + 1, 0, _, hg, _ => by omega
  | f + 1, g + 1, s, hg, h => by
    unfold followedBy at h ⊢
    obtain ⟨s1, h1, h⟩ := bind_ok h
    rw [scan_ok_behind h1]
    simp only [bind, Except.bind]
    change (if s1.tokenType = .Whitespace then _ else Except.ok (decide (s1.tokenType = t))) = _
    by_cases hw : s1.tokenType = .Whitespace
    · rw [if_pos hw] at h ⊢
      exact followedBy_ok (by omega) h
    · rw [if_neg hw] at h ⊢
      exact h

theorem CompCtx.Moves.len (m : x.Moves pre e x') : x'.doc.text.length = x.doc.text.length + pre.length := by
  rw [m.put.text, List.length_append]; omega

theorem CompCtx.Moves.followed (m : x.Moves pre e x') {o : Nat} {st : SS} {t : TT} {b : Bool}
    (hst : st = .WithinEndTag ∨ st = .AfterAttributeName) (h : x.isFollowedBy o st t = .ok b) :
    x'.isFollowedBy (o + pre.length) st t = .ok b := by
  unfold CompCtx.isFollowedBy at h ⊢
  have h1 := followedBy_ok (pre := pre) (g := 2 * x'.doc.text.length + 2) (by rw [m.len]; omega) h
  rw [m.cfg]
  rw [followedBy] at h1 ⊢
  rw [scan_new_any hst]
  exact h1

/-! ### End tags -/

theorem lineIndent_behind (m : x.Moves pre e x') {o : Nat} : ∀ {i : Nat}, 1 ≤ i →
    lineIndent x'.doc.text (o + pre.length) (i + pre.length) = lineIndent x.doc.text o i
  | 0, h => by omega
  | 1, _ => by
    rw [show 1 + pre.length = pre.length + 1 by omega, lineIndent, lineIndent,
      show getStr x'.doc.text pre.length (pre.length + 1) = getStr x.doc.text 0 1 by
        have := m.get 0 1; rwa [Nat.zero_add, Nat.add_comm 1] at this, m.get_first]
    simp only [if_true]
    rw [show pre.length + 1 = 0 + 1 + pre.length by omega, m.slice]
  | i + 2, _ => by
    rw [show i + 2 + pre.length = (i + 1 + pre.length) + 1 by omega, lineIndent, lineIndent,
      show i + 1 + pre.length + 1 = i + 2 + pre.length by omega, m.get, m.slice, lineIndent_behind m (by omega)]

theorem CompCtx.Moves.closeItem (m : x.Moves pre e x') {n : Node} {t c : Str} {a b : Nat} {i : CompItem} (hn : 1 ≤ n.start)
    (ha : 2 ≤ a) (h : x.closeItem n t c a b = .ok i) :
    x'.closeItem (n.shift pre.length) t c (a + pre.length) (b + pre.length) = .ok (CompItem.after e i) := by
  unfold CompCtx.closeItem getLineIndent at h ⊢
  obtain ⟨si, h1, h⟩ := bind_ok h
  obtain ⟨q, h2, h⟩ := bind_ok h
  obtain ⟨ei, h3, h⟩ := bind_ok h
  have hq : q = a - 1 := by
    unfold subU at h2
    rw [if_pos (by omega)] at h2
    cases h2; rfl
  rw [shift_start, lineIndent_behind m hn, h1, subU_mv h2]
  simp only [bind, Except.bind]
  rw [lineIndent_behind m (by omega), h3]
  simp only
  cases si with
  | none => cases h; rw [m.range]; rfl
  | some si =>
    cases ei with
    | none => cases h; rw [m.range]; rfl
    | some ei =>
      simp only at h ⊢
      by_cases hs : si ≠ ei
      · rw [if_pos hs] at h ⊢
        obtain ⟨r, h4, h⟩ := bind_ok h
        cases h
        rw [subU_mv h4]
        simp only
        rw [m.offset, m.range]
        rfl
      · rw [if_neg hs] at h ⊢
        cases h
        rw [m.range]; rfl

theorem find_shift {p q : Node → Bool} {k : Nat} (h : ∀ n, p (n.shift k) = q n) (l : List Node) :
    (l.map (Node.shift k)).find? p = (l.find? q).map (Node.shift k) := by
  rw [List.find?_map]
  congr 2
  funext n
  exact h n

theorem CompCtx.Moves.toClose (m : x.Moves pre e x') (b : Bool) : x'.toClose b = (x.toClose b).map (Node.shift pre.length) := by
  unfold CompCtx.toClose firstUp
  have h : ∀ n : Node, ((n.shift pre.length).tag.isSome && isOpen x'.offset (n.shift pre.length)) =
      (n.tag.isSome && isOpen x.offset n) := by
    intro n
    rw [m.offset, isOpen_shift, shift_tag]
  dsimp only
  rw [m.node, m.parents, shifts_map, ← List.map_reverse, ← List.map_cons]
  rw [find_shift h, find_shift h]
  cases b <;> rfl

theorem CompCtx.Moves.endTags (m : x.Moves pre e x') : x'.endTags = x.endTags.map (CompItem.after e) := by
  unfold CompCtx.endTags
  rw [m.env, List.map_flatMap]
  congr 1
  funext p
  rw [List.map_map]
  rfl

theorem CompCtx.Moves.closeTags (m : x.Moves pre e x') {a b : Nat} {o : Bool} {l : List CompItem} (ha : 2 ≤ a)
    (h : x.closeTags a o b = .ok l) : x'.closeTags (a + pre.length) o (b + pre.length) = .ok (l.map (CompItem.after e)) := by
  unfold CompCtx.closeTags at h ⊢
  obtain ⟨f, h1, h⟩ := bind_ok h
  rw [m.followed (.inl rfl) h1]
  simp only [bind, Except.bind]
  rw [m.toClose]
  cases hc : x.toClose o with
  | none =>
    rw [hc] at h
    cases h
    simp only [Option.map_none]
    cases o
    · simp only [m.endTags]; rfl
    · rfl
  | some n =>
    rw [hc] at h
    obtain ⟨i, h2, h⟩ := bind_ok h
    cases h
    have hn : 1 ≤ n.start := by
      apply m.starts
      unfold CompCtx.toClose firstUp at hc
      dsimp only at hc
      split at hc
      · have := List.mem_of_find?_eq_some hc
        simp at this ⊢; exact .inr this
      · have := List.mem_of_find?_eq_some hc
        simpa using this
    simp only [Option.map_some, shift_tag]
    rw [m.closeItem hn ha h2]
    rfl

theorem CompCtx.Moves.tags (m : x.Moves pre e x') {a b : Nat} {l : List CompItem} (ha : 2 ≤ a)
    (h : x.tags a b = .ok l) : x'.tags (a + pre.length) (b + pre.length) = .ok (l.map (CompItem.after e)) := by
  unfold CompCtx.tags at h ⊢
  obtain ⟨r, h1, h⟩ := bind_ok h
  cases h
  rw [m.closeTags ha h1]
  simp only [bind, Except.bind]
  rw [m.openTags, List.map_append]

/-! ### Attributes -/

theorem CompCtx.Moves.attrItems (m : x.Moves pre e x') (r : Range) (v : Str) : ∀ (as : List AttributeData) (ex : HMap Bool),
    x'.attrItems (Range.after e r) v as ex = ((x.attrItems r v as ex).1.map (CompItem.after e), (x.attrItems r v as ex).2)
  | [], ex => rfl
  | a :: as, ex => by
    rw [CompCtx.attrItems, CompCtx.attrItems, m.attrItems r v as, m.attrItems r v as]
    split
    · rfl
    · simp only [List.map_cons, Prod.mk.injEq, List.cons.injEq, and_true]
      unfold CompCtx.attrItem
      rw [m.env]
      rfl

theorem CompCtx.Moves.providerAttrs (m : x.Moves pre e x') (r : Range) (v : Str) (t : Option Str) :
    ∀ {ps : List Provider} {ex : HMap Bool} {y : List CompItem × HMap Bool}, (∀ q ∈ ps, q ∈ x.env.providers) →
    x.providerAttrs r v t ps ex = .ok y → x'.providerAttrs (Range.after e r) v t ps ex = .ok (y.1.map (CompItem.after e), y.2)
  | [], ex, y, _, h => by cases h; rfl
  | p :: ps, ex, y, hp, h => by
    unfold CompCtx.providerAttrs at h ⊢
    obtain ⟨t', h1, h⟩ := bind_ok h
    obtain ⟨q, h2, h⟩ := bind_ok h
    cases h
    rw [h1]
    simp only [bind, Except.bind]
    rw [m.prov p (hp p (by simp)) t' x'.offset x.offset, m.attrItems]
    simp only
    rw [m.providerAttrs r v t (fun q hq => hp q (by simp [hq])) h2]
    simp

theorem CompCtx.Moves.dataItems (m : x.Moves pre e x') (r : Range) (ex : HMap Bool) :
    x'.dataItems (Range.after e r) ex = (x.dataItems r ex).map (CompItem.after e) := by
  unfold CompCtx.dataItems
  rw [m.data, List.map_map]
  rfl

theorem replaceEnd_behind (m : x.Moves pre e x') : ∀ f i, replaceEnd x'.doc.text f (i + pre.length) = replaceEnd x.doc.text f i + pre.length
  | 0, _ => rfl
  | f + 1, i => by
    rw [replaceEnd, replaceEnd, show i + pre.length + 1 = i + 1 + pre.length by omega, m.get, replaceEnd_behind m f (i + 1)]
    split <;> rfl

theorem shift_names {n : Node} {k : Nat} {β : Type} (f : Str → β) :
    (n.shift k).attributes.map (fun a => f a.1) = n.attributes.map (fun a => f a.1) := by
  cases n with
  | mk tag start stop children closed ste ets attrs =>
    simp only [Node.shift]
    unfold shiftAttrs
    rw [List.map_map]
    rfl

theorem CompCtx.Moves.attrNames (m : x.Moves pre e x') {t : Option Str} {a b : Nat} {l : List CompItem}
    (h : x.attrNames t a b = .ok l) : x'.attrNames t (a + pre.length) (b + pre.length) = .ok (l.map (CompItem.after e)) := by
  unfold CompCtx.attrNames at h ⊢
  dsimp only at h ⊢
  obtain ⟨cur, h1, h⟩ := bind_ok h
  obtain ⟨f, h2, h⟩ := bind_ok h
  obtain ⟨r, h3, h⟩ := bind_ok h
  cases h
  rw [Nat.add_min_add_right, Nat.add_max_add_right, m.slice, h1, m.offset,
    show b + pre.length - (x.offset + pre.length) = b - x.offset by omega, replaceEnd_behind m, m.range]
  simp only [bind, Except.bind]
  rw [m.followed (.inr rfl) h2]
  simp only
  rw [m.node, m.env, shift_names (fun s => (s, true)), m.providerAttrs _ _ _ (ps := x.env.active) (fun q hq => (List.mem_filter.1 hq).1) h3]
  simp only
  rw [m.dataItems, List.map_append]

theorem wordStart_behind (m : x.Moves pre e x') {l : Nat} : ∀ {o r : Nat}, wordStart x.doc.text l o = .ok r →
    wordStart x'.doc.text (l + pre.length) (o + pre.length) = .ok (r + pre.length)
  | 0, r, h => by
    cases h
    rw [Nat.zero_add]
    cases hk : pre.length with
    | zero => rfl
    | succ k => rw [wordStart, if_neg (by omega)]
  | o + 1, r, h => by
    rw [show o + 1 + pre.length = o + pre.length + 1 by omega]
    unfold wordStart at h ⊢
    by_cases hl : l < o + 1
    · rw [if_pos hl] at h
      rw [if_pos (by omega), show o + pre.length + 1 = o + 1 + pre.length by omega, m.slice]
      obtain ⟨c, h1, h⟩ := bind_ok h
      rw [h1]
      simp only [bind, Except.bind]
      by_cases hw : isWhite c = true
      · rw [if_pos hw] at h ⊢; cases h; rfl
      · rw [if_neg hw] at h ⊢; exact wordStart_behind m h
    · rw [if_neg hl] at h
      cases h
      rw [if_neg (by omega)]
      congr 1; omega

theorem wordEnd_behind (m : x.Moves pre e x') : ∀ {f o r : Nat}, wordEnd x.doc.text f o = .ok r →
    wordEnd x'.doc.text f (o + pre.length) = .ok (r + pre.length)
  | 0, o, r, h => by cases h; rfl
  | f + 1, o, r, h => by
    unfold wordEnd at h ⊢
    obtain ⟨c, h1, h⟩ := bind_ok h
    rw [show o + pre.length + 1 = o + 1 + pre.length by omega, m.slice, h1]
    simp only [bind, Except.bind]
    by_cases hw : isWhite c = true
    · rw [if_pos hw] at h ⊢; cases h; rfl
    · rw [if_neg hw] at h ⊢; exact wordEnd_behind m h

theorem CompCtx.Moves.inQuotes (m : x.Moves pre e x') (a b : Nat) :
    x'.inQuotes (a + pre.length) (b + pre.length) = x.inQuotes a b := by
  unfold CompCtx.inQuotes
  rw [m.offset, show a + pre.length + 1 = a + 1 + pre.length by omega, m.slice]
  by_cases hq : a < x.offset ∧ x.offset ≤ b
  · rw [if_pos hq, if_pos (by omega)]
  · rw [if_neg hq, if_neg (by omega)]

theorem CompCtx.Moves.contentEnd (m : x.Moves pre e x') (a b : Nat) :
    x'.contentEnd (a + pre.length) (b + pre.length) = x.contentEnd a b + pre.length := by
  unfold CompCtx.contentEnd
  by_cases hq : a < b
  · rw [show b + pre.length - 1 = b - 1 + pre.length by omega, show a + pre.length + 1 = a + 1 + pre.length by omega, m.get, m.get]
    by_cases hr : getStr x.doc.text (b - 1) b = getStr x.doc.text a (a + 1)
    · rw [if_pos ⟨by omega, hr⟩, if_pos ⟨hq, hr⟩]
    · rw [if_neg (fun h => hr h.2), if_neg (fun h => hr h.2)]
  · rw [if_neg (fun h => hq (by omega)), if_neg (fun h => hq h.1)]

theorem CompCtx.Moves.valueRange (m : x.Moves pre e x') {a b : Nat} {r : Range × Str × Bool} (h : x.valueRange a b = .ok r) :
    x'.valueRange (a + pre.length) (b + pre.length) = .ok (Range.after e r.1, r.2) := by
  unfold CompCtx.valueRange at h ⊢
  obtain ⟨q, h1, h⟩ := bind_ok h
  rw [m.inQuotes, h1]
  simp only [bind, Except.bind]
  cases q with
  | true =>
    simp only [if_true] at h ⊢
    obtain ⟨i, h2, h⟩ := bind_ok h
    obtain ⟨j, h3, h⟩ := bind_ok h
    obtain ⟨t, h4, h⟩ := bind_ok h
    cases h
    rw [m.contentEnd, m.offset, show a + pre.length + 1 = a + 1 + pre.length by omega, wordStart_behind m h2,
      show x.contentEnd a b + pre.length - (x.offset + pre.length) = x.contentEnd a b - x.offset by omega]
    simp only
    rw [wordEnd_behind m h3]
    simp only
    have h5 : (if a + 1 + pre.length ≤ x.offset + pre.length ∧ x.offset + pre.length < x.contentEnd a b + pre.length then
        sliceStr x'.doc.text (a + 1 + pre.length) (x.offset + pre.length) else Except.ok []) = Except.ok t := by
      rw [m.slice]
      by_cases hq : a + 1 ≤ x.offset ∧ x.offset < x.contentEnd a b
      · rw [if_pos hq] at h4
        rw [if_pos (by omega), h4]
      · rw [if_neg hq] at h4
        rw [if_neg (by omega), h4]
    rw [h5]
    simp only [m.range]
  | false =>
    simp only [Bool.false_eq_true, if_false] at h ⊢
    obtain ⟨t, h2, h⟩ := bind_ok h
    cases h
    rw [m.offset, m.slice, h2]
    simp only [m.range]

theorem CompCtx.Moves.attrValues (m : x.Moves pre e x') {t : Option Str} {n : Str} {a b : Nat} {l : List CompItem}
    (h : x.attrValues t n a b = .ok l) : x'.attrValues t n (a + pre.length) (b + pre.length) = .ok (l.map (CompItem.after e)) := by
  unfold CompCtx.attrValues at h ⊢
  obtain ⟨r, h1, h⟩ := bind_ok h
  cases h
  rw [m.valueRange h1, m.env, m.parts]
  simp only [bind, Except.bind, List.flatMap_nil, List.nil_append]
  rw [List.map_flatMap]
  congr 2
  funext p
  rw [List.map_map]
  apply List.map_congr_left
  intro v _
  simp only [Function.comp, CompCtx.valueItem, m.env]
  rfl

/-! ### Content -/

theorem CompCtx.Moves.autoClose (m : x.Moves pre e x') (b : Nat) (t : Str) :
    x'.autoClose (b + pre.length) t = (x.autoClose b t).map (CompItem.after e) := by
  unfold CompCtx.autoClose
  rw [m.env, m.put.pos]
  split
  · rfl
  · split <;> rfl

theorem CompCtx.Moves.letters (m : x.Moves pre e x') : lettersBefore x.doc.text x.offset < x.offset := by
  obtain ⟨h1, h2, _⟩ := lettersBefore_spec x.doc.text x.offset
  rcases Nat.lt_or_ge (lettersBefore x.doc.text x.offset) x.offset with h | h
  · exact h
  · have := h2 0 (by omega) m.pos
    unfold isLetterOrDigit at this
    rw [m.first] at this
    cases this

theorem CompCtx.Moves.entityItems (m : x.Moves pre e x') {l : List CompItem} (h : x.entityItems = .ok l) :
    x'.entityItems = .ok (l.map (CompItem.after e)) := by
  unfold CompCtx.entityItems at h ⊢
  dsimp only at h ⊢
  have hl := m.letters
  have e1 : lettersBefore x'.doc.text x'.offset = lettersBefore x.doc.text x.offset := by
    rw [m.put.text, m.offset, lettersBefore_behind m.last]
  have e2 : x'.position = ⟨e.line + x.position.line, x.position.character⟩ := by
    rw [m.position]; unfold Pos.after; rw [if_neg m.line]
  obtain ⟨s, h1, h⟩ := bind_ok h
  rw [e1, e2]
  simp only
  rw [h1]
  simp only [bind, Except.bind]
  rw [m.offset, show x.offset + pre.length - lettersBefore x.doc.text x.offset - 1 = x.offset - lettersBefore x.doc.text x.offset - 1 + pre.length by omega,
    show x.offset + pre.length - lettersBefore x.doc.text x.offset = x.offset - lettersBefore x.doc.text x.offset + pre.length by omega, m.get, m.env]
  by_cases hq : 1 ≤ x.offset - lettersBefore x.doc.text x.offset ∧
      getStr x.doc.text (x.offset - lettersBefore x.doc.text x.offset - 1) (x.offset - lettersBefore x.doc.text x.offset) = some b!"&"
  · rw [if_pos hq] at h
    rw [if_pos ⟨by omega, hq.2⟩]
    obtain ⟨s', h2, h⟩ := bind_ok h
    cases h
    rw [h2]
    simp only [List.map_map]
    congr 1
    apply List.map_congr_left
    intro a _
    simp only [Function.comp, entityItem, CompItem.after, Option.map_some, TextEdit.after, Range.after, Pos.after, if_neg m.line]
  · rw [if_neg hq] at h
    rw [if_neg (fun h => hq ⟨by omega, h.2⟩)]
    cases h; rfl

theorem CompCtx.Moves.insideContent (m : x.Moves pre e x') {l : List CompItem} (h : x.insideContent = .ok l) :
    x'.insideContent = .ok (l.map (CompItem.after e)) := by
  unfold CompCtx.insideContent at h ⊢
  obtain ⟨r, h1, h⟩ := bind_ok h
  cases h
  rw [m.entityItems h1, m.env, m.parts]
  rfl

theorem slashBefore_behind (m : x.Moves pre e x') : ∀ {o : Nat} {r : Option Nat}, slashBefore x.doc.text o = .ok r →
    slashBefore x'.doc.text (o + pre.length) = .ok (r.map (· + pre.length))
  | 0, r, h => by
    cases h
    rw [Nat.zero_add]
    cases hk : pre.length with
    | zero => rfl
    | succ k =>
      have h1 : getStr x'.doc.text (k + 1) (k + 2) = some [10] := by
        have := m.get 0 1
        rw [hk, m.get_first, Nat.zero_add, show 1 + (k + 1) = k + 2 by omega] at this
        exact this
      unfold slashBefore
      rw [h1]
      simp only [unwrap, bind, Except.bind]
      rw [if_neg (by decide), if_pos (by decide)]
      cases k with
      | zero => rfl
      | succ k =>
        unfold slashBefore
        rw [m.get_last hk.symm]
        rfl
  | o + 1, r, h => by
    rw [show o + 1 + pre.length = o + pre.length + 1 by omega]
    unfold slashBefore at h ⊢
    rw [show o + pre.length + 1 = o + 1 + pre.length by omega, show o + pre.length + 2 = o + 2 + pre.length by omega, m.get]
    obtain ⟨c, h1, h⟩ := bind_ok h
    rw [h1]
    simp only [bind, Except.bind]
    by_cases hc : c = b!"/"
    · rw [if_pos hc] at h ⊢; cases h; rfl
    · rw [if_neg hc] at h ⊢
      by_cases hw : isWhite c = true
      · rw [if_pos hw] at h ⊢; exact slashBefore_behind m h
      · rw [if_neg hw] at h ⊢; cases h; rfl

/-! ### Tokens -/

/-- What is known between two tokens. -/
structure TwoIn (c : Cfg) (p : Sc) : Prop where
  opn : p.state = .AfterOpeningStartTag → 2 ≤ p.pos
  close : p.state = .AfterOpeningEndTag → CloseBehind c.src p.pos

theorem Step.startOpen_two {c : Cfg} {p s : Sc} (h : Step c p s) (h0 : c.src[0]? = some 10)
    (hk : s.state = .AfterOpeningStartTag) (hp : p.state = .AfterOpeningStartTag → 2 ≤ p.pos) : 2 ≤ s.pos := by
  have ns : ∀ a, afterStartTag a ≠ .AfterOpeningStartTag := by
    intro a h
    rcases afterStartTag_content a with h1 | h1 | h1 <;> rw [h1] at h <;> cases h
  have ct : ∀ {a : Sc}, StepContent c a s → a.state ≠ .AfterOpeningStartTag → 2 ≤ s.pos := by
    intro a hx ha
    clear h
    cases hx with
    | startTagOpen h1 =>
      rw [rest_head] at h1
      have : a.pos ≠ 0 := by intro h; rw [h, h0] at h1; cases h1
      simp only [fin, adv]; omega
    | content h1 h2 => exact absurd hk ha
    | _ => simp [fin, adv] at hk
  cases h with
  | eos h => exact hp hk
  | endTag _ h hs hx => cases hx <;> simp [fin, adv, hs] at hk
  | content _ h hs hx => exact ct hx (by rw [hs]; decide)
  | scriptContent _ h hs hl hx => exact ct hx (by simp)
  | styleContent _ h hs hb h0 hx => exact ct hx (by simp)
  | tag _ h hs hx =>
    cases hx with
    | unknown s1 hp1 => simp [fin, adv, hp1.state_eq, hs] at hk
    | _ => simp [fin, adv, hs, ns] at hk
  | afterNameTag _ h hs hw h0 hx =>
    cases hx with
    | unknown s1 hp1 => simp [fin, adv, hp1.state_eq] at hk
    | _ => simp [fin, adv, ns] at hk
  | valueTag _ h hs hw hb h0 h1 hx =>
    cases hx with
    | unknown s1 hp1 => simp [fin, adv, hp1.state_eq] at hk
    | _ => simp [fin, adv, ns] at hk
  | startTagWs h hs hb hn h0 =>
    have := hp hs
    simp only [fin, adv]; omega
  | script p st h hs hp hl hst =>
    rcases hst with ⟨e, _⟩ | ⟨e, _⟩ <;> simp [fin, e] at hk
  | _ => simp [fin, adv, *] at hk

theorem TwoIn.next {c : Cfg} {p s : Sc} (ht : TwoIn c p) (h0 : c.src[0]? = some 10) (h : scan c p = .ok s) : TwoIn c s :=
  ⟨fun hk => (scan_step h).startOpen_two h0 hk ht.opn, fun hk => (scan_step h).after_endOpen hk ht.close⟩

theorem closeBehind_two {src : Str} {q : Nat} (h0 : src[0]? = some 10) (h1 : 1 ≤ q) (h2 : src[q - 1]? = some 60) : 2 ≤ q := by
  rcases Nat.lt_or_ge q 2 with h | h
  · rw [show q - 1 = 0 by omega, h0] at h2; cases h2
  · exact h

theorem slashBefore_ge {text : Str} {q : Nat} (hq : 1 ≤ q) (h47 : text[q]? = some 47) : ∀ {o i : Nat}, q ≤ o →
    slashBefore text o = .ok (some i) → q ≤ i
  | 0, _, h, _ => by omega
  | o + 1, i, h, hs => by
    unfold slashBefore at hs
    obtain ⟨c, h1, hs⟩ := bind_ok hs
    by_cases hc : c = b!"/"
    · rw [if_pos hc] at hs; cases hs; omega
    · rw [if_neg hc] at hs
      by_cases hw : isWhite c = true
      · rw [if_pos hw] at hs
        rcases Nat.lt_or_ge o q with ho | ho
        · exfalso
          have : q = o + 1 := by omega
          subst this
          refine hc ?_
          unfold getStr sliceStr at h1
          split at h1
          · simp only [Except.toOption, unwrap] at h1
            cases h1
            have := (List.getElem?_eq_some_iff.1 h47)
            obtain ⟨a, b⟩ := this
            rw [List.drop_take, show o + 2 - (o + 1) = 1 by omega, List.drop_eq_getElem_cons a, b]
            rfl
          · cases h1
        · exact slashBefore_ge hq h47 ho hs
      · rw [if_neg hw] at hs; cases hs

theorem CompCtx.Moves.onToken (m : x.Moves pre e x') {p s : Sc} {tag : Option Str} {attr : Str} {r : Option (List CompItem)}
    (ht : TwoIn (x.env.cfg x.doc true) p) (hs : scan (x.env.cfg x.doc true) p = .ok s)
    (h : x.onToken tag attr s = .ok r) :
    x'.onToken tag attr (s.shift pre.length) = .ok (r.map (List.map (CompItem.after e))) := by
  have st := scan_step hs
  have hto : s.tokenOffset = p.pos := st.facts.1
  have h0 : (x.env.cfg x.doc true).src[0]? = some 10 := m.first
  unfold CompCtx.onToken at h ⊢
  have ety : (s.shift pre.length).tokenType = s.tokenType := rfl
  have ept : (s.shift pre.length).pos = s.pos + pre.length := rfl
  have eot : (s.shift pre.length).tokenOffset = s.tokenOffset + pre.length := rfl
  have est : (s.shift pre.length).state = s.state := rfl
  rw [ety]
  have touch : x'.touches (s.shift pre.length) = x.touches s := by
    unfold CompCtx.touches
    rw [ept, eot, m.offset]
    simp only [Nat.add_le_add_iff_right]
  cases hk : s.tokenType <;> rw [hk] at h <;> simp only at h ⊢
  case StartTagOpen =>
    unfold CompCtx.onStartTagOpen at h ⊢
    rw [ept, m.offset]
    by_cases hq : s.pos = x.offset
    · rw [if_pos hq] at h
      rw [if_pos (by omega)]
      obtain ⟨b, h1, h⟩ := bind_ok h
      obtain ⟨l, h2, h⟩ := bind_ok h
      rw [m.nextEnd h1]
      have h3 := st.open_byte (.inl hk)
      have h4 := h3.2 hk
      have : p.pos ≠ 0 := by intro h; rw [h, h0] at h3; cases h3.1
      simp only [bind, Except.bind]
      rw [m.tags (by omega) h2]
      simp only
      rw [if_neg m.line] at h
      have : x'.position.line ≠ 0 := by
        rw [m.position]
        have := m.line
        simp only [Pos.after]; omega
      rw [if_neg this]
      cases h
      rfl
    · rw [if_neg hq] at h
      cases h
      rw [if_neg (by omega)]; rfl
  case StartTag =>
    unfold CompCtx.onStartTag at h ⊢
    rw [touch, ept, eot, m.openTags]
    cases h
    split <;> rfl
  case AttributeName =>
    unfold CompCtx.onAttributeName at h ⊢
    rw [touch, ept, eot]
    by_cases hq : x.touches s = true
    · rw [if_pos hq] at h ⊢
      obtain ⟨l, h2, h⟩ := bind_ok h
      cases h
      rw [m.attrNames h2]; rfl
    · rw [if_neg hq] at h ⊢
      cases h; rfl
  case DelimiterAssign =>
    unfold CompCtx.onDelimiterAssign at h ⊢
    rw [ept, m.offset]
    by_cases hq : s.pos = x.offset
    · rw [if_pos hq] at h
      rw [if_pos (by omega)]
      obtain ⟨b, h1, h⟩ := bind_ok h
      obtain ⟨l, h2, h⟩ := bind_ok h
      cases h
      rw [m.nextEnd h1]
      simp only [bind, Except.bind]
      rw [m.attrValues h2]; rfl
    · rw [if_neg hq] at h
      cases h
      rw [if_neg (by omega)]; rfl
  case AttributeValue =>
    unfold CompCtx.onAttributeValue at h ⊢
    rw [touch, ept, eot]
    by_cases hq : x.touches s = true
    · rw [if_pos hq] at h ⊢
      obtain ⟨l, h2, h⟩ := bind_ok h
      cases h
      rw [m.attrValues h2]; rfl
    · rw [if_neg hq] at h ⊢
      cases h; rfl
  case Whitespace =>
    unfold CompCtx.onWhitespace at h ⊢
    rw [ept, est, eot, m.offset]
    by_cases hq : x.offset ≤ s.pos
    · rw [if_pos hq] at h
      rw [if_pos (by omega)]
      cases hst : s.state <;> rw [hst] at h <;> simp only at h ⊢
      case AfterOpeningStartTag =>
        obtain ⟨b, h1, h⟩ := bind_ok h
        obtain ⟨l, h2, h⟩ := bind_ok h
        cases h
        have h3 : 2 ≤ p.pos := by
          rcases st.ws_named hk with ⟨_, h4⟩ | ⟨h4 | h4, _⟩ | ⟨h4, _⟩ | h4
          · exact ht.opn h4
          all_goals (rw [hst] at h4; cases h4)
        rw [m.nextEnd h1]
        simp only [bind, Except.bind]
        rw [m.tags (by omega) h2]; rfl
      case WithinTag =>
        obtain ⟨l, h2, h⟩ := bind_ok h
        cases h
        rw [m.attrNames h2]; rfl
      case AfterAttributeName =>
        obtain ⟨l, h2, h⟩ := bind_ok h
        cases h
        rw [m.attrNames h2]; rfl
      case BeforeAttributeValue =>
        obtain ⟨l, h2, h⟩ := bind_ok h
        cases h
        rw [m.attrValues h2]; rfl
      case AfterOpeningEndTag =>
        obtain ⟨b, h1, h⟩ := bind_ok h
        obtain ⟨l, h2, h⟩ := bind_ok h
        cases h
        have h3 : CloseBehind x.doc.text p.pos := by
          rcases st.ws_named hk with ⟨h4, _⟩ | ⟨h4 | h4, _⟩ | ⟨_, h4⟩ | h4
          case inr.inr.inl => exact ht.close h4
          all_goals (rw [hst] at h4; cases h4)
        obtain ⟨q, q1, q2, q3, _⟩ := h3
        have q4 := closeBehind_two m.first q1 q3
        have hb : b = s.tokenOffset - 1 := by
          unfold subU at h1
          split at h1
          · cases h1; rfl
          · cases h1
        rw [subU_mv h1]
        simp only [bind, Except.bind]
        rw [m.closeTags (by omega) h2]; rfl
      case WithinContent =>
        obtain ⟨l, h2, h⟩ := bind_ok h
        cases h
        rw [m.insideContent h2]; rfl
      all_goals (cases h; rfl)
    · rw [if_neg hq] at h
      cases h
      rw [if_neg (by omega)]; rfl
  case StartTagClose =>
    unfold CompCtx.onStartTagClose at h ⊢
    rw [ept, m.offset]
    cases h
    by_cases hq : x.offset ≤ s.pos
    · rw [if_pos hq, if_pos (by omega)]
      cases tag with
      | none => rfl
      | some t => simp only [Option.map_some, m.autoClose]
    · rw [if_neg hq, if_neg (by omega)]; rfl
  case Content =>
    unfold CompCtx.onContent at h ⊢
    rw [ept, m.offset]
    by_cases hq : x.offset ≤ s.pos
    · rw [if_pos hq] at h
      rw [if_pos (by omega)]
      obtain ⟨l, h2, h⟩ := bind_ok h
      cases h
      rw [m.insideContent h2]; rfl
    · rw [if_neg hq] at h
      cases h
      rw [if_neg (by omega)]; rfl
  case EndTagOpen =>
    unfold CompCtx.onEndTagOpen at h ⊢
    rw [ept, eot, m.offset]
    by_cases hq : x.offset ≤ s.pos
    · rw [if_pos hq] at h
      rw [if_pos (by omega)]
      obtain ⟨b, h1, h⟩ := bind_ok h
      obtain ⟨l, h2, h⟩ := bind_ok h
      cases h
      have h3 := st.open_byte (.inr hk)
      have : p.pos ≠ 0 := by intro h; rw [h, h0] at h3; cases h3.1
      rw [m.nextEnd h1]
      simp only [bind, Except.bind]
      rw [show s.tokenOffset + pre.length + 1 = s.tokenOffset + 1 + pre.length by omega, m.closeTags (by omega) h2]; rfl
    · rw [if_neg hq] at h
      cases h
      rw [if_neg (by omega)]; rfl
  case EndTag =>
    unfold CompCtx.onEndTag at h ⊢
    rw [ept, eot, m.offset]
    by_cases hq : x.offset ≤ s.pos
    · rw [if_pos hq] at h
      rw [if_pos (by omega)]
      obtain ⟨b, h1, h⟩ := bind_ok h
      obtain ⟨o, h2, h⟩ := bind_ok h
      rw [subU_mv h1]
      simp only [bind, Except.bind]
      rw [slashBefore_behind m h2]
      cases o with
      | none => cases h; rfl
      | some i =>
        obtain ⟨l, h3, h⟩ := bind_ok h
        cases h
        obtain ⟨q, q1, q2, q3, q4, _⟩ := ht.close (st.endTag_state hk)
        have q5 := closeBehind_two h0 q1 q3
        have hb : b = s.tokenOffset - 1 := by
          unfold subU at h1
          split at h1
          · cases h1; rfl
          · cases h1
        have := slashBefore_ge q1 q4 (o := b) (by omega) h2
        simp only [Option.map_some]
        rw [m.closeTags (by omega) h3]
    · rw [if_neg hq] at h
      cases h
      rw [if_neg (by omega)]; rfl
  all_goals
    rw [ept, m.offset]
    cases h
    by_cases hq : x.offset < s.pos
    · rw [if_pos hq, if_pos (by omega)]; rfl
    · rw [if_neg hq, if_neg (by omega)]; rfl

theorem CompCtx.Moves.loop (m : x.Moves pre e x') : ∀ {f g : Nat} {tag : Option Str} {attr : Str} {p s : Sc} {l : List CompItem}, f ≤ g →
    TwoIn (x.env.cfg x.doc true) p → scan (x.env.cfg x.doc true) p = .ok s → x.loop f tag attr s = .ok l →
    x'.loop g tag attr (s.shift pre.length) = .ok (l.map (CompItem.after e))
  | 0, _, _, _, _, _, _, _, _, _, h => by cases h
  | f + 1, 0, _, _, _, _, _, hg, _, _, _ => by omega
  | f + 1, g + 1, tag, attr, p, s, l, hg, ht, hs, h => by
    unfold CompCtx.loop at h ⊢
    rw [m.offset, m.cfg]
    change (if s.tokenType ≠ .EOS ∧ s.tokenOffset + pre.length < x.offset + pre.length then _ else _) = _
    by_cases hq : s.tokenType ≠ .EOS ∧ s.tokenOffset < x.offset
    · rw [if_pos hq] at h
      rw [if_pos ⟨hq.1, by omega⟩]
      obtain ⟨r, h1, h⟩ := bind_ok h
      rw [m.onToken ht hs h1]
      simp only [bind, Except.bind]
      cases r with
      | some r => cases h; rfl
      | none =>
        obtain ⟨t', h2, h⟩ := bind_ok h
        obtain ⟨a', h3, h⟩ := bind_ok h
        obtain ⟨s1, h4, h⟩ := bind_ok h
        have e2 : x'.nextTag tag (s.shift pre.length) = x.nextTag tag s := by
          unfold CompCtx.nextTag
          rw [m.cfg, tokenText_behind (s := s) rfl]
          rfl
        have e3 : x'.nextAttr attr (s.shift pre.length) = x.nextAttr attr s := by
          unfold CompCtx.nextAttr
          rw [m.cfg, tokenText_behind (s := s) rfl]
          rfl
        simp only [Option.map_none]
        rw [e2, h2, e3]
        simp only
        rw [h3]
        simp only
        rw [scan_ok_behind h4]
        exact m.loop (by omega) (ht.next m.first hs) h4 h
    · rw [if_neg hq] at h
      cases h
      rw [if_neg (fun h => hq ⟨h.1, by omega⟩)]
      rfl

/-! ### The names of data attributes -/

theorem addDataNames_none (ex : HMap Bool) : ∀ (l : List Str) (m : HMap Str), (∀ a ∈ l, (b!"data-").isPrefixOf a = false) →
    addDataNames ex l m = m
  | [], _, _ => rfl
  | a :: l, m, h => by
    rw [addDataNames, h a (by simp), Bool.false_and, Bool.false_and]
    exact addDataNames_none ex l m (fun b hb => h b (by simp [hb]))

mutual
theorem addData_none (ex : HMap Bool) : ∀ (n : Node) (m : HMap Str), NoData [n] → n.addData ex m = m
  | ⟨tag, start, stop, children, closed, ste, ets, attrs⟩, m, h => by
    rw [Node.addData, addDataNames_none]
    · exact addDataAll_none ex children m (fun c hc => h c (inForest_up (List.mem_singleton.2 rfl) hc))
    · intro a ha
      obtain ⟨y, hy, rfl⟩ := List.mem_map.1 ha
      exact h _ (.root (List.mem_singleton.2 rfl)) y hy
theorem addDataAll_none (ex : HMap Bool) : ∀ (l : List Node) (m : HMap Str), NoData l → Node.addDataAll ex l m = m
  | [], m, _ => rfl
  | n :: l, m, h => by
    rw [Node.addDataAll, addData_none ex n m, addDataAll_none ex l m]
    · exact fun c hc => h c (inForest_sub hc (fun y hy => by simp [hy]))
    · exact fun c hc => h c (inForest_sub hc (fun y hy => by simp at hy; simp [hy]))
end

mutual
theorem addData_shift (ex : HMap Bool) (k : Nat) : ∀ (n : Node) (m : HMap Str), (n.shift k).addData ex m = n.addData ex m
  | ⟨tag, start, stop, children, closed, ste, ets, attrs⟩, m => by
    rw [Node.shift, Node.addData, Node.addData]
    have : (shiftAttrs k attrs).map (·.1) = attrs.map (·.1) := by
      unfold shiftAttrs; rw [List.map_map]; rfl
    rw [this]
    exact addDataAll_shift ex k children _
theorem addDataAll_shift (ex : HMap Bool) (k : Nat) : ∀ (l : List Node) (m : HMap Str),
    Node.addDataAll ex (Node.shifts k l) m = Node.addDataAll ex l m
  | [], m => rfl
  | n :: l, m => by
    rw [Node.shifts, Node.addDataAll, Node.addDataAll, addData_shift ex k n]
    exact addDataAll_shift ex k l _
end

theorem addDataAll_append (ex : HMap Bool) : ∀ (l l' : List Node) (m : HMap Str),
    Node.addDataAll ex (l ++ l') m = Node.addDataAll ex l' (Node.addDataAll ex l m)
  | [], _, _ => rfl
  | n :: l, l', m => by
    rw [List.cons_append, Node.addDataAll, Node.addDataAll]
    exact addDataAll_append ex l l' _

theorem complete_moved {u : Uni} {cs : Bool} {void : List Str} {front roots roots' : List Node} {p : Pos} {cps : List Nat} {a : Node}
    {env : CompEnv} {l : List CompItem} (hc : ClosedText u cs void pre front) (hb : PutBehind pre e d d')
    (h : parse u cs void d.text = .ok roots) (h' : parse u cs void d'.text = .ok roots')
    (ha : roots.head? = some a) (hp : a.start < d.offsetAt p) (hu : Utf8 cps d.text) (h10 : d.text.head? = some 10)
    (hl : p.line ≠ 0) (hd : NoData front) (hn : env.participants = [])
    (hv : ∀ q ∈ env.providers, ∀ t i j, q.provideAttributes t i = q.provideAttributes t j)
    (hr : doComplete env d p roots = .ok l) :
    doComplete env d' (Pos.after e p) roots' = .ok (l.map (CompItem.after e)) := by
  have first : d.text[0]? = some 10 := by rw [← List.head?_eq_getElem?]; exact h10
  unfold doComplete at hr ⊢
  dsimp only at hr ⊢
  rw [hb.off, before_behind hc hb h h' ha hp]
  have hs := findNodeBefore_spec (o := d.offsetAt p) (parse_nest h)
  cases hf : findNodeBefore roots (d.offsetAt p) with
  | none => rw [hf] at hr; cases hr; rfl
  | some r =>
    obtain ⟨n, ps⟩ := r
    rw [hf] at hr hs
    obtain ⟨s, h1, hr⟩ := bind_ok hr
    simp only [Option.map_some, shift_start]
    have m : CompCtx.Moves pre e ⟨env, d, p, d.offsetAt p, n, ps, roots⟩
        ⟨env, d', Pos.after e p, d.offsetAt p + pre.length, n.shift pre.length, Node.shifts pre.length ps, roots'⟩ := by
      refine ⟨hb, rfl, rfl, rfl, rfl, rfl, fun ex m => ?_, hc.last_byte, first, ?_, hl, by show 1 ≤ d.offsetAt p; omega, fun q hq => ?_, hn, hv⟩
      · show Node.addDataAll ex roots' m = Node.addDataAll ex roots m
        rw [roots_behind hc hb h h', addDataAll_append, addDataAll_none ex front m hd, addDataAll_shift]
      · exact asciiNext_of_utf8 hu 0 10 first (by decide)
      · have hin : InForest roots q := by
          have := chain_inForest hs.chain
          rcases List.mem_cons.1 hq with rfl | hq
          · exact this.1
          · exact this.2 q hq
        have h5 : d.text[q.start]? = some 60 := (parse_done h hin).opn
        rcases Nat.eq_zero_or_pos q.start with h6 | h6
        · rw [h6, first] at h5; cases h5
        · exact h6
    rw [cfg_behind hb, scan_new, scan_ok_behind h1]
    refine m.loop (f := 2 * d.text.length + 2) (p := .new n.start .WithinContent) ?_ ⟨fun h => ?_, fun h => ?_⟩ h1 hr
    · rw [hb.text, List.length_append]; omega
    · cases h
    · cases h

end

end Html
