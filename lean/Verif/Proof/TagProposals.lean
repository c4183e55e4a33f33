import Verif.Proof.EditRanges
import Verif.Proof.Local

/-! # Proposals of tags -/

namespace Html
open Spec

variable {x : CompCtx}

/-! ### The known tags -/

theorem active_eq (e : CompEnv) : e.active = e.providers.filter (Enabled e ·) := by
  refine List.filter_congr fun p _ => ?_
  rw [Bool.eq_iff_iff, decide_eq_true_iff]
  unfold Enabled
  cases hs : e.settings with
  | none => simp
  | some c =>
    simp
    intro _
    cases HMap.find c.provider p.id <;> simp

theorem openTags_edits (a b : Nat) : edits (x.openTags a b) =
    (knownTags x.env).map fun t => (t.name, some ⟨x.replaceRange a b, t.name⟩) := by
  unfold CompCtx.openTags knownTags edits
  rw [active_eq, List.map_flatMap, List.map_flatMap]
  congr 1
  funext p
  rw [List.map_map]
  rfl

theorem endTags_edits : edits x.endTags = (knownTags x.env).map fun t => (b!"/" ++ t.name, none) := by
  unfold CompCtx.endTags knownTags edits
  rw [active_eq, List.map_flatMap, List.map_flatMap]
  congr 1
  funext p
  rw [List.map_map]
  rfl

/-! ### `>` behind the name -/

theorem Step.in_end {c : Cfg} {s s' : Sc} (h : Step c s s') (hs : s.state = .WithinEndTag)
    (he : c.emitPseudo = false) :
    (s'.tokenType = .Whitespace → s'.state = .WithinEndTag ∧ s'.pos = s.pos + wsLen (rest c s)) ∧
    (s'.tokenType ≠ .Whitespace → wsLen (rest c s) = 0 ∧
      (s'.tokenType = .EndTagClose ↔ c.src[s.pos]? = some 62)) := by
  have hr : (rest c s).head? = c.src[s.pos]? := by simp [rest]
  cases h with
  | eos h =>
    have : rest c s = [] := by unfold rest; exact List.drop_eq_nil_of_le h
    simp [fin, this, wsLen, h]
  | endTag s' h hs' hx =>
    cases hx with
    | ws h => simp [fin, adv, hs]
    | close h =>
      have : wsLen (rest c s) = 0 := (wsLen_zero_iff).2 (fun b hb => by rw [h] at hb; cases hb; rfl)
      simp [fin, adv, this, ← hr, h]
    | pseudo he' h => rw [he] at he'; cases he'
    | unknown h0 h1 h2 => rw [hr] at h1; simp [fin, adv, h0, h1]
  | _ => simp_all

theorem blanks_zero {src : Str} {i k : Nat} (h : wsLen (src.drop i) = 0) :
    (∃ w, Spaces w ∧ At src i (w ++ [k])) ↔ src[i]? = some k := by
  constructor
  · rintro ⟨w, hw, r, hr⟩
    cases w with
    | nil =>
      have := congrArg (·[0]?) hr
      simpa [List.getElem?_drop] using this
    | cons b w =>
      exfalso
      have hb := isWs_of_space (hw b (by simp))
      rw [hr] at h
      simp [wsLen, hb] at h
  · intro h1
    refine ⟨[], by simp [Spaces], src.drop (i + 1), ?_⟩
    obtain ⟨h2, h3⟩ := List.getElem?_eq_some_iff.1 h1
    rw [List.drop_eq_getElem_cons h2, h3]; rfl

theorem blanks_ws {src : Str} {i k : Nat} (hk : isWs k = false) :
    (∃ w, Spaces w ∧ At src (i + wsLen (src.drop i)) (w ++ [k])) ↔ (∃ w, Spaces w ∧ At src i (w ++ [k])) := by
  have key : ∀ (r : Str), (∃ w, Spaces w ∧ ∃ q, r.drop (wsLen r) = (w ++ [k]) ++ q) ↔
      (∃ w, Spaces w ∧ ∃ q, r = (w ++ [k]) ++ q) := by
    intro r
    induction r with
    | nil => simp [wsLen]
    | cons b r ih =>
      by_cases hb : isWs b = true
      · have h1 : wsLen (b :: r) = wsLen r + 1 := by simp [wsLen, hb, Nat.add_comm]
        rw [h1, List.drop_succ_cons, ih]
        constructor
        · rintro ⟨w, hw, q, h⟩
          refine ⟨b :: w, ?_, q, by rw [h]; rfl⟩
          intro y hy
          rcases List.mem_cons.1 hy with rfl | hy
          · exact isWs_space hb
          · exact hw y hy
        · rintro ⟨w, hw, q, h⟩
          cases w with
          | nil =>
            simp only [List.nil_append, List.cons_append, List.cons.injEq] at h
            rw [h.1, hk] at hb; cases hb
          | cons a w =>
            simp only [List.cons_append, List.cons.injEq] at h
            exact ⟨w, fun y hy => hw y (by simp [hy]), q, h.2⟩
      · have h1 : wsLen (b :: r) = 0 := by simp [wsLen, hb]
        rw [h1]; rfl
  unfold At
  rw [← List.drop_drop]
  exact key (src.drop i)

theorem followedBy_gt {c : Cfg} (he : c.emitPseudo = false) {f : Nat} {s : Sc} {b : Bool}
    (hs : s.state = .WithinEndTag) (h : followedBy c .EndTagClose f s = .ok b) :
    b = true ↔ GtFollows c.src s.pos := by
  induction f generalizing s with
  | zero => cases h
  | succ f ih =>
    rw [followedBy] at h
    obtain ⟨s1, h1, h⟩ := bind_ok h
    have hst := scan_step h1
    obtain ⟨g1, g2⟩ := hst.in_end hs he
    split at h
    · rename_i hw
      obtain ⟨g3, g5⟩ := g1 hw
      rw [ih g3 h, g5]
      exact blanks_ws (by decide)
    · rename_i hw
      cases h
      obtain ⟨g3, g4⟩ := g2 hw
      rw [decide_eq_true_eq, g4]
      exact (blanks_zero g3).symm

/-! ### Indentation -/

theorem utf8_lead_next {cps : List Nat} {src : Str} (hu : Utf8 cps src) {i b : Nat} (hg : src[i]? = some b)
    (hb : 128 ≤ b) (h1 : isBoundary src i = true) : isBoundary src (i + 1) = false := by
  obtain ⟨hc, rfl⟩ := hu
  obtain ⟨k, hk⟩ := utf8_boundary hc h1
  have hlt : i < (cps.flatMap encodeCP).length := (List.getElem?_eq_some_iff.1 hg).1
  have hdr := isBoundary_drop (s := cps.flatMap encodeCP) (a := i) (i := 1) (by omega)
  rw [← hdr, hk]
  have hh : ((cps.drop k).flatMap encodeCP).head? = some b := by rw [← hk]; simpa using hg
  cases hck : cps.drop k with
  | nil => rw [hck] at hh; simp at hh
  | cons cp r =>
    rw [hck] at hh
    have : ∃ b' x t, encodeCP cp = b' :: x :: t ∧ isCont x = true := by
      rw [List.flatMap_cons] at hh
      unfold encodeCP at hh ⊢
      split at hh
      · simp at hh; omega
      · rw [if_neg (by assumption)]
        split
        · exact ⟨_, _, _, rfl, by simp [isCont]; omega⟩
        · split
          · exact ⟨_, _, _, rfl, by simp [isCont]; omega⟩
          · exact ⟨_, _, _, rfl, by simp [isCont]; omega⟩
    obtain ⟨b', y, t, he, hy⟩ := this
    rw [List.flatMap_cons, he]
    unfold isBoundary
    rw [if_neg (by simp)]
    simp [hy]

theorem white_byte {b : Nat} (h : b < 128) : isWhite [b] = true ↔ (9 ≤ b ∧ b ≤ 13) ∨ b = 32 := by
  unfold isWhite isSpaceCP
  simp
  omega

/-- Blank in the sense of indentation. -/
def indentByte (b : Nat) : Prop := (9 ≤ b ∧ b ≤ 13) ∨ b = 32 ∨ 128 ≤ b

theorem linePrefix_append {src w : Str} {k : Nat} (hk : k ≤ src.length) (h : src.take k ++ w = src.take (k + w.length))
    (hw : 10 ∉ w) : linePrefix src (k + w.length) = linePrefix src k ++ w := by
  unfold linePrefix
  rw [← h, List.reverse_append, List.takeWhile_append_of_pos (by
    intro b hb
    have : b ∈ w := List.mem_reverse.1 hb
    simp only [ne_eq, decide_not, Bool.not_eq_true', decide_eq_false_iff_not]
    rintro rfl; exact hw this)]
  simp

theorem lineIndent_spec {cps : List Nat} {src : Str} (hu : Utf8 cps src) {o k : Nat} {r : Option Str} (hk : k ≤ o)
    (ho : o ≤ src.length) (hw : ∀ b ∈ bytesIn src k o, indentByte b ∧ b ≠ 10) (h : lineIndent src o k = .ok r) :
    r = indentBefore src o := by
  have hpre : ∀ j, j ≤ o → 10 ∉ bytesIn src j o → linePrefix src o = linePrefix src j ++ bytesIn src j o := by
    intro j hj hw
    have hl : (bytesIn src j o).length = o - j := by simp [bytesIn]; omega
    have := linePrefix_append (src := src) (w := bytesIn src j o) (k := j) (by omega)
      (by
        rw [hl, show j + (o - j) = o by omega]
        unfold bytesIn
        have := List.take_append_drop j (src.take o)
        rw [List.take_take, Nat.min_eq_left hj] at this
        exact this) hw
    rw [hl, show j + (o - j) = o by omega] at this
    exact this
  induction k with
  | zero =>
    rw [lineIndent] at h
    obtain ⟨s, h1, h⟩ := bind_ok h
    cases h
    have hs := (sliceStr_ok h1).2.2.2.2
    have hp : linePrefix src o = s := by
      rw [hpre 0 hk (fun hm => (hw 10 hm).2 rfl), hs]
      simp [linePrefix]
    unfold indentBefore
    rw [hp, if_pos]
    intro b hb
    rw [hs] at hb
    exact (hw b hb).1
  | succ k ih =>
    obtain ⟨b, hb⟩ : ∃ b, src[k]? = some b := ⟨src[k], List.getElem?_eq_getElem (by omega)⟩
    have hcons : bytesIn src k o = b :: bytesIn src (k + 1) o := by
      unfold bytesIn
      obtain ⟨h2, h3⟩ := List.getElem?_eq_some_iff.1 hb
      rw [List.drop_eq_getElem_cons (by simp; omega)]
      simp [h3]
    rw [lineIndent] at h
    split at h
    · rename_i hg
      have hb128 : 128 ≤ b := by
        rcases Nat.lt_or_ge b 128 with h1 | h1
        · rw [getStr_one.2 ⟨hb, isBoundary_of_get hb (by simp [isCont]; omega), asciiNext_of_utf8 hu k b hb h1⟩] at hg
          cases hg
        · exact h1
      refine ih (by omega) (fun y hy => ?_) h
      rw [hcons] at hy
      rcases List.mem_cons.1 hy with rfl | hy
      · exact ⟨.inr (.inr hb128), by omega⟩
      · exact hw y hy
    · rename_i c hg
      have hc : c = [b] := by
        unfold getStr at hg
        cases hs : sliceStr src k (k + 1) with
        | error e => rw [hs] at hg; cases hg
        | ok y =>
          rw [hs] at hg
          cases hg
          rw [(sliceStr_ok hs).2.2.2.2]
          unfold bytesIn
          obtain ⟨h2, h3⟩ := List.getElem?_eq_some_iff.1 hb
          rw [List.drop_eq_getElem_cons (by simp; omega)]
          simp [h3]
      subst hc
      obtain ⟨g1, g2, g3⟩ := getStr_one.1 hg
      have hb128 : b < 128 := by
        rcases Nat.lt_or_ge b 128 with h1 | h1
        · exact h1
        · rw [utf8_lead_next hu hb h1 g2] at g3; cases g3
      split at h
      · rename_i hnl
        simp only [List.cons.injEq, and_true] at hnl
        subst hnl
        obtain ⟨s, h1, h⟩ := bind_ok h
        cases h
        have hs := (sliceStr_ok h1).2.2.2.2
        have hp : linePrefix src o = s := by
          rw [hpre (k + 1) hk (fun hm => (hw 10 hm).2 rfl), hs]
          unfold linePrefix
          rw [List.take_add_one, hb]
          simp
        unfold indentBefore
        rw [hp, if_pos]
        intro b hb
        rw [hs] at hb
        exact (hw b hb).1
      · rename_i hnl
        have hnl : b ≠ 10 := fun h => hnl (by rw [h])
        split at h
        · rename_i hwh
          have := (white_byte hb128).1 hwh
          refine ih (by omega) (fun y hy => ?_) h
          rw [hcons] at hy
          rcases List.mem_cons.1 hy with rfl | hy
          · exact ⟨by unfold indentByte; omega, hnl⟩
          · exact hw y hy
        · rename_i hwh
          cases h
          have := mt (white_byte hb128).2 hwh
          unfold indentBefore
          rw [if_neg]
          intro hall
          have h1 := hpre k (by omega) (by
            rw [hcons]
            intro hm
            rcases List.mem_cons.1 hm with h | h
            · exact hnl h.symm
            · exact (hw 10 h).2 rfl)
          have := hall b (by rw [h1, hcons]; simp)
          omega

theorem getLineIndent_spec {cps : List Nat} {src : Str} (hu : Utf8 cps src) {o : Nat} {r : Option Str}
    (ho : o ≤ src.length) (h : getLineIndent src o = .ok r) : r = indentBefore src o :=
  lineIndent_spec hu (Nat.le_refl _) ho (by simp [bytesIn]) h

/-! ### End tags -/

theorem find_last {p : Node → Bool} {l : List Node} :
    (∃ m, l.reverse.find? p = some m ∧ ∃ outer inner, l = outer ++ m :: inner ∧ p m = true ∧ ∀ k ∈ inner, p k = false) ∨
    (l.reverse.find? p = none ∧ ∀ k ∈ l, p k = false) := by
  cases h : l.reverse.find? p with
  | none =>
    right
    refine ⟨rfl, fun k hk => ?_⟩
    have := List.find?_eq_none.1 h k (List.mem_reverse.2 hk)
    simpa using this
  | some m =>
    left
    obtain ⟨h1, a, b, h2, h3⟩ := List.find?_eq_some_iff_append.1 h
    refine ⟨m, rfl, b.reverse, a.reverse, ?_, h1, fun k hk => ?_⟩
    · have := congrArg List.reverse h2
      simpa using this
    · have := h3 k (List.mem_reverse.1 hk)
      simpa using this

theorem closeItem_spec {cps : List Nat} (hu : Utf8 cps x.doc.text) {n : Node} {tag close : Str} {a stop : Nat}
    (ha : a + 1 ≤ x.offset) (hn : n.start ≤ x.doc.text.length) (hl : a ≤ x.doc.text.length) {i : CompItem}
    (h : x.closeItem n tag close (a + 1) stop = .ok i) :
    (i.label, i.textEdit) = (b!"/" ++ tag, some (closeEdit x.doc n tag close a stop x.offset)) := by
  unfold CompCtx.closeItem at h
  obtain ⟨si, h1, h⟩ := bind_ok h
  obtain ⟨before, h2, h⟩ := bind_ok h
  obtain ⟨ei, h3, h⟩ := bind_ok h
  have hb : before = a := by have := subU_ok h2; omega
  subst hb
  have e1 := getLineIndent_spec hu hn h1
  have e2 := getLineIndent_spec hu hl h3
  subst e1 e2
  have hmin : min (before + 1) x.offset = before + 1 := Nat.min_eq_left ha
  unfold closeEdit
  split at h
  · rename_i si ei g1 g2
    rw [g1, g2]
    simp only
    split at h
    · rename_i hne
      obtain ⟨rep, h4, h⟩ := bind_ok h
      cases h
      rw [if_pos hne]
      have := subU_ok h4
      have hr : rep = before - ei.length := by omega
      simp only [CompCtx.replaceRange, hr, Nat.min_eq_left (show before - ei.length ≤ x.offset by omega)]
    · rename_i hne
      cases h
      rw [if_neg hne]
      simp only [CompCtx.replaceRange, hmin]
  · rename_i g
    cases h
    simp only [CompCtx.replaceRange, hmin]

theorem closeTags_spec {cps : List Nat} (hu : Utf8 cps x.doc.text) {a stop : Nat} {inOpen : Bool}
    {r : List CompItem} (ha : a + 1 ≤ x.offset) (hn : ∀ n ∈ x.node :: x.parents, n.start ≤ x.doc.text.length)
    (hl : a ≤ x.doc.text.length) (h : x.closeTags (a + 1) inOpen stop = .ok r) :
    ClosesInnermost x.doc x.offset (if inOpen then x.parents else x.parents ++ [x.node]) a stop (edits r) ∨
    ((∀ m tag, ¬ InnermostOpen x.offset (if inOpen then x.parents else x.parents ++ [x.node]) m tag) ∧
      r = if inOpen then [] else x.endTags) := by
  unfold CompCtx.closeTags at h
  obtain ⟨f, h1, h⟩ := bind_ok h
  have hf : f = true ↔ GtFollows x.doc.text stop := followedBy_gt rfl rfl h1
  have htc : x.toClose inOpen = (if inOpen then x.parents else x.parents ++ [x.node]).reverse.find?
      (fun n => n.tag.isSome && isOpen x.offset n) := by
    unfold CompCtx.toClose firstUp
    cases inOpen <;> simp
  have key : ∀ k : Node, (k.tag.isSome && isOpen x.offset k) = false ↔ (k.tag = none ∨ ¬ Unclosed x.offset k) := by
    intro k
    rw [Bool.and_eq_false_iff]
    unfold Unclosed
    rw [← isOpen_iff]
    simp
  generalize hnest : (if inOpen then x.parents else x.parents ++ [x.node]) = nested at htc ⊢
  rcases find_last (p := fun n => n.tag.isSome && isOpen x.offset n) (l := nested) with
    ⟨m, g1, outer, inner, g2, g3, g4⟩ | ⟨g1, g2⟩
  · left
    rw [htc, g1] at h
    simp only at h
    obtain ⟨i, h2, h⟩ := bind_ok h
    cases h
    rw [Bool.and_eq_true] at g3
    obtain ⟨tag, htag⟩ := Option.isSome_iff_exists.1 g3.1
    have hmem : m ∈ x.node :: x.parents := by
      have : m ∈ nested := by rw [g2]; simp
      rw [← hnest] at this
      cases inOpen <;> simp at this ⊢
      · exact this.symm
      · exact .inr this
    rw [htag] at h2
    refine ⟨m, tag, if f then [] else b!">", ⟨outer, inner, g2, htag, isOpen_iff.1 g3.2, fun k hk => (key k).1 (g4 k hk)⟩,
      fun hg => by rw [hf.2 hg]; rfl, fun hg => by rw [if_neg (fun h => hg (hf.1 h))], ?_⟩
    have := closeItem_spec hu ha (hn m hmem) hl h2
    exact congrArg (fun y => [y]) this
  · right
    rw [htc, g1] at h
    cases h
    refine ⟨?_, rfl⟩
    rintro m tag ⟨outer, inner, i1, i2, i3, _⟩
    have := (key m).1 (g2 m (by rw [i1]; simp))
    rcases this with h | h
    · rw [h] at i2; cases i2
    · exact h i3

/-! ### The end of the name behind the cursor -/

theorem nextEnd_spec {s : Sc} {post : List Tok} {k : TT} {b : Nat} (hs : Stream (x.env.cfg x.doc true) s post)
    (hk : k ≠ .EOS) (h : x.nextEnd s k = .ok b) :
    b = if s.pos = x.offset then (post.head?.elim x.offset fun t => if t.type = k then t.stop else x.offset)
      else x.offset := by
  unfold CompCtx.nextEnd at h
  split at h
  · rename_i ho
    obtain ⟨s1, h1, h⟩ := bind_ok h
    cases h
    rw [if_pos ho.symm]
    have hoff := (scan_step h1).offset_eq
    cases post with
    | nil =>
      obtain ⟨s2, h2, h3⟩ := hs.nil
      rw [h1] at h2; cases h2
      rw [if_neg (fun hh => hk (hh.1.symm.trans h3))]
      rfl
    | cons t post =>
      obtain ⟨s2, h2, h3, h4, h5⟩ := hs.cons
      rw [h1] at h2; cases h2
      subst h4
      simp only [List.head?_cons, Option.elim]
      show _ = if s1.tokenType = k then s1.pos else _
      by_cases hh : s1.tokenType = k
      · rw [if_pos ⟨hh, by omega⟩, if_pos hh]
      · rw [if_neg (fun h => hh h.1), if_neg hh]
  · rename_i ho
    cases h
    rw [if_neg (fun h => ho h.symm)]

/-! ### The tokens -/

variable {void : List Str} {e : CompEnv} {d : TextDoc} {position : Pos} {o : Nat} {roots : List Node} {ts : List Tok}
variable {cps : List Nat}

theorem lastBracket_of_nonWs {l : List TT} {k : TT} (hk : isBracket k = true) (h : lastNonWs l = some k) :
    lastBracket l = some k := by
  unfold lastNonWs at h
  unfold lastBracket
  have e : l.filter isBracket = (l.filter (fun t => t ≠ .Whitespace)).filter isBracket := by
    rw [List.filter_filter]
    apply List.filter_congr
    intro t _
    cases t <;> rfl
  rw [e]
  obtain ⟨ys, hy⟩ := List.getLast?_eq_some_iff.1 h
  rw [hy, List.filter_append]
  simp [hk]

theorem Doc.start_le (h : Doc e.uni e.caseSensitive void d.text roots ts) {n : Node} (hn : InForest roots n) :
    n.start < d.text.length :=
  (List.getElem?_eq_some_iff.1 (parse_done h.parse hn).opn).1

theorem Doc.tags_in_name (h : Doc e.uni e.caseSensitive void d.text roots ts) {pre post : List Tok} {t : Tok}
    (hts : ts = pre ++ t :: post) (hk : t.type = .StartTag) (h1 : t.offset < o) (h2 : o ≤ t.stop)
    (ho : d.offsetAt position = o) {r : List CompItem} (hr : doComplete e d position roots = .ok r) :
    edits r = (knownTags e).map fun k => (k.name, some ⟨⟨d.posAt t.offset, d.posAt t.stop⟩, k.name⟩) := by
  have hg := h.grammar hts
  rw [hk] at hg
  have hb := lastBracket_of_nonWs rfl hg
  obtain ⟨m, ps, p, t0, mid, s, q, g1, g2, g3, g4, g5, g6, g7, g8, g9, rfl, g11, g12, g13, rfl⟩ :=
    h.complete_in_tag hts hb (by rw [hk]; rfl) h1 h2 ho hr
  have hk : s.tokenType = .StartTag := hk
  have h1 : s.tokenOffset < o := h1
  have h2 : o ≤ s.pos := h2
  unfold CompCtx.onToken at g13
  rw [hk] at g13
  simp only at g13
  unfold CompCtx.onStartTag at g13
  have ht : CompCtx.touches ⟨e, d, position, o, m, ps, roots⟩ s = true := by
    unfold CompCtx.touches; simp; omega
  rw [if_pos ht] at g13
  cases g13
  rw [Option.getD_some, openTags_edits]
  simp only [CompCtx.replaceRange, Nat.min_eq_left (Nat.le_of_lt h1)]
  rfl

theorem Doc.new_node (h : Doc e.uni e.caseSensitive void d.text roots ts) {t : Tok} (ht : t ∈ ts)
    (hk : t.type = .StartTagOpen) : t.stop = t.offset + 1 ∧ ∃ n ps, findNodeBefore roots t.stop = some (n, ps) ∧
      Chain roots ps n ∧ n.start = t.offset := by
  have hok := h.textOK ht
  unfold TextOK at hok
  rw [hk] at hok
  have hle := (contiguous_le h.contiguous).2 t ht
  have hlen : t.stop = t.offset + 1 := by
    have := congrArg List.length hok
    simp [Spec.text] at this
    omega
  obtain ⟨n, hn, hs⟩ := h.tok_node ht hk
  have hlt := (deep_forest (parse_nest h.parse).deep hn).here.1
  obtain ⟨ps, hf⟩ := h.locate (o := t.stop) hn (by omega) (by omega) (fun m hm => by
    have := (h.inner_gt hn hm).2
    omega)
  exact ⟨hlen, n, ps, hf, (Props.C23_last_node_before _ _ _ _ _ _ _ _ h.parse hf).2.1, hs⟩

theorem Doc.tags_behind_bracket (h : Doc e.uni e.caseSensitive void d.text roots ts) (hu : Utf8 cps d.text)
    {pre post : List Tok} {t : Tok}
    (hts : ts = pre ++ t :: post) (hk : t.type = .StartTagOpen) (h2 : t.stop = o)
    (ho : d.offsetAt position = o) {r : List CompItem} (hr : doComplete e d position roots = .ok r) :
    ∃ n ps doctype tags close, Chain roots ps n ∧ n.start = t.offset ∧ r = doctype ++ (tags ++ close) ∧
      edits doctype = (if position.line = 0 then
        [(b!"!DOCTYPE", some ⟨⟨d.posAt o, d.posAt (nameEnd .StartTag o post)⟩, b!"!DOCTYPE html>"⟩)] else []) ∧
      edits tags = ((knownTags e).map fun k =>
        (k.name, some ⟨⟨d.posAt o, d.posAt (nameEnd .StartTag o post)⟩, k.name⟩)) ∧
      (ClosesInnermost d o ps t.offset (nameEnd .StartTag o post) (edits close) ∨
        ((∀ m tag, ¬ InnermostOpen o ps m tag) ∧ close = [])) := by
  have hm : t ∈ ts := by rw [hts]; simp
  obtain ⟨hlen, n, ps, hf, hch, hst⟩ := h.new_node hm hk
  subst h2
  obtain ⟨p, l, t0, l', s, q, c1, c2, c3, c4, rfl, c6, c7, c8, rfl⟩ :=
    h.complete_at hf hts (by omega) (Nat.le_refl _) ho hr
  have hk : s.tokenType = .StartTagOpen := hk
  have hlen : s.pos = s.tokenOffset + 1 := hlen
  unfold CompCtx.onToken at c8
  rw [hk] at c8
  simp only at c8
  unfold CompCtx.onStartTagOpen at c8
  rw [if_pos (show s.pos = s.tok.stop from rfl)] at c8
  obtain ⟨stop, e1, c8⟩ := bind_ok c8
  obtain ⟨q', e2, c8⟩ := bind_ok c8
  cases c8
  have e3 := nextEnd_spec c7 (by decide) e1
  rw [if_pos (show s.pos = s.tok.stop from rfl)] at e3
  have e4 : stop = nameEnd .StartTag s.tok.stop post := by
    rw [e3]
    cases post <;> rfl
  subst e4
  unfold CompCtx.tags at e2
  obtain ⟨close, e5, e2⟩ := bind_ok e2
  cases e2
  simp only [show s.tok.stop = s.tokenOffset + 1 from hlen] at *
  have e6 := closeTags_spec (x := ⟨e, d, position, s.tokenOffset + 1, n, ps, roots⟩) hu (Nat.le_refl _) (fun k hk => by
      have : InForest roots k := by
        rcases List.mem_cons.1 hk with rfl | hk
        · exact (chain_inForest hch).1
        · exact (chain_inForest hch).2 k hk
      exact Nat.le_of_lt (h.start_le this)) (by
        have := (contiguous_le h.contiguous).2 s.tok hm
        simp only [Sc.tok] at this
        show s.tokenOffset ≤ d.text.length
        omega) e5
  refine ⟨n, ps, _, _, close, hch, hst, rfl, ?_, ?_, e6⟩
  · split
    · simp [edits, CompCtx.doctype, CompCtx.replaceRange]
    · rfl
  · rw [openTags_edits]
    simp [CompCtx.replaceRange]

/-! ### End tags -/

/-- The proposals in an end tag: the innermost unclosed element is closed; without one all end tags are
proposed. -/
theorem Doc.closes (h : Doc e.uni e.caseSensitive void d.text roots ts) (hu : Utf8 cps d.text) {n : Node}
    {ps : List Node} (hf : findNodeBefore roots o = some (n, ps)) {a stop : Nat} (ha : a + 1 ≤ o)
    (hl : a ≤ d.text.length) {r : List CompItem}
    (hr : CompCtx.closeTags ⟨e, d, position, o, n, ps, roots⟩ (a + 1) false stop = .ok r) :
    ClosesInnermost d o (ps ++ [n]) a stop (edits r) ∨
      ((∀ m tag, ¬ InnermostOpen o (ps ++ [n]) m tag) ∧
        edits r = (knownTags e).map fun k => (b!"/" ++ k.name, none)) := by
  have hch := (Props.C23_last_node_before _ _ _ _ _ _ _ _ h.parse hf).2.1
  rcases closeTags_spec (x := ⟨e, d, position, o, n, ps, roots⟩) hu ha (fun k hk => by
      have : InForest roots k := by
        rcases List.mem_cons.1 hk with rfl | hk
        · exact (chain_inForest hch).1
        · exact (chain_inForest hch).2 k hk
      exact Nat.le_of_lt (h.start_le this)) hl hr with h1 | ⟨h1, h2⟩
  · exact .inl h1
  · refine .inr ⟨h1, ?_⟩
    subst h2
    exact endTags_edits

theorem Doc.close_behind_bracket (h : Doc e.uni e.caseSensitive void d.text roots ts) (hu : Utf8 cps d.text) {n : Node}
    {ps : List Node} (hf : findNodeBefore roots o = some (n, ps)) {pre post : List Tok} {t : Tok}
    (hts : ts = pre ++ t :: post) (hk : t.type = .EndTagOpen) (h1 : t.offset < o) (h2 : o ≤ t.stop)
    (ho : d.offsetAt position = o) {r : List CompItem} (hr : doComplete e d position roots = .ok r) :
    ClosesInnermost d o (ps ++ [n]) t.offset (if t.stop = o then nameEnd .EndTag o post else o) (edits r) ∨
      ((∀ m tag, ¬ InnermostOpen o (ps ++ [n]) m tag) ∧
        edits r = (knownTags e).map fun k => (b!"/" ++ k.name, none)) := by
  have hm : t ∈ ts := by rw [hts]; simp
  obtain ⟨p, l, t0, l', s, q, c1, c2, c3, c4, rfl, c6, c7, c8, rfl⟩ := h.complete_at hf hts h1 h2 ho hr
  have hk : s.tokenType = .EndTagOpen := hk
  have h1 : s.tokenOffset < o := h1
  have h2 : o ≤ s.pos := h2
  unfold CompCtx.onToken at c8
  rw [hk] at c8
  simp only at c8
  unfold CompCtx.onEndTagOpen at c8
  rw [if_pos h2] at c8
  obtain ⟨stop, e1, c8⟩ := bind_ok c8
  obtain ⟨q', e2, c8⟩ := bind_ok c8
  cases c8
  have e3 := nextEnd_spec c7 (by decide) e1
  have e4 : stop = if s.tok.stop = o then nameEnd .EndTag o post else o := by
    rw [e3]
    show (if s.pos = o then _ else _) = if s.pos = o then _ else _
    congr 1
    cases post <;> rfl
  subst e4
  have hle := (contiguous_le h.contiguous).2 s.tok hm
  simp only [Sc.tok] at hle
  exact h.closes hu hf h1 (by omega) e2

theorem slashBefore_spec {src : Str} {a : Nat} (ha : 0 < a) (hs : src[a]? = some 47) {k : Nat} {r : Option Nat}
    (hk : a ≤ k) (hw : ∀ i b, a < i → i ≤ k → src[i]? = some b → Space b) (h : slashBefore src k = .ok r) :
    r = some a := by
  induction k with
  | zero => omega
  | succ k ih =>
    rw [slashBefore] at h
    obtain ⟨c, h1, h⟩ := bind_ok h
    obtain ⟨b, hb, hc⟩ : ∃ b, src[k + 1]? = some b ∧ c = [b] := by
      cases hg : getStr src (k + 1) (k + 2) with
      | none => rw [hg] at h1; cases h1
      | some c' =>
        rw [hg] at h1
        cases h1
        unfold getStr at hg
        cases hsl : sliceStr src (k + 1) (k + 2) with
        | error e => rw [hsl] at hg; cases hg
        | ok y =>
          rw [hsl] at hg
          cases hg
          obtain ⟨_, g2, _, _, g5⟩ := sliceStr_ok hsl
          refine ⟨src[k + 1], List.getElem?_eq_getElem (by omega), ?_⟩
          rw [g5]
          unfold bytesIn
          rw [List.drop_eq_getElem_cons (by simp; omega)]
          simp
    subst hc
    rcases Nat.eq_or_lt_of_le hk with he | hlt
    · subst he
      rw [hs] at hb; cases hb
      rw [if_pos rfl] at h
      cases h; rfl
    · have hsp := hw (k + 1) b (by omega) (Nat.le_refl _) hb
      unfold Space at hsp
      rw [if_neg (by simp; omega), if_pos ((white_byte (by omega)).2 (by omega))] at h
      exact ih (by omega) (fun i b h1 h2 => hw i b h1 (by omega)) h

theorem contiguous_cover {ts : List Tok} {a b i : Nat} (h : Contiguous a ts b) (h1 : a ≤ i) (h2 : i < b) :
    ∃ z ∈ ts, z.offset ≤ i ∧ i < z.stop := by
  induction ts generalizing a with
  | nil => have : a = b := h; omega
  | cons t ts ih =>
    obtain ⟨e, _, h3⟩ := h
    rcases Nat.lt_or_ge i t.stop with h4 | h4
    · exact ⟨t, by simp, by omega, h4⟩
    · obtain ⟨z, hz, hz'⟩ := ih h3 h4
      exact ⟨z, by simp [hz], hz'⟩

/-- White space between `</` and the name. -/
theorem Doc.end_blanks (h : Doc e.uni e.caseSensitive void d.text roots ts) {pre post : List Tok} {t : Tok}
    (hts : ts = pre ++ t :: post) (hl : lastNonWs (pre.map Tok.type) = some .EndTagOpen) :
    ∃ y ∈ pre, y.type = .EndTagOpen ∧ y.stop = y.offset + 2 ∧ y.stop ≤ t.offset ∧ d.text[y.offset + 1]? = some 47 ∧
      (∀ i b, y.stop ≤ i → i < t.offset → d.text[i]? = some b → Space b) ∧
      (∀ z ∈ pre, z.type = .EndTagOpen → z.offset ≤ y.offset) := by
  obtain ⟨p, y, mid, hp, hy, hmid⟩ := lastNonWs_split hl
  subst hp
  have hcg := h.contiguous
  rw [hts] at hcg
  have hm : y ∈ ts := by rw [hts]; simp
  have hok := h.textOK hm
  unfold TextOK at hok
  rw [hy] at hok
  have hle := (contiguous_le h.contiguous).2 y hm
  have hlen : y.stop = y.offset + 2 := by
    have := congrArg List.length hok
    simp [Spec.text] at this
    omega
  have hsl : d.text[y.offset + 1]? = some 47 := by
    have h8 := congrArg (·[1]?) hok
    simp only [Spec.text, List.getElem?_drop, List.getElem?_take] at h8
    rw [if_pos (by omega)] at h8
    rw [h8]; rfl
  obtain ⟨c, hc1, hc2, _⟩ := contiguous_split hcg
  obtain ⟨c', hc3, hc4, _⟩ := contiguous_split hc1
  obtain ⟨hy1, hy2, hc5⟩ := hc4
  obtain ⟨ht1, _⟩ := hc2
  refine ⟨y, by simp, hy, hlen, ?_, hsl, ?_, ?_⟩
  · have := (contiguous_le hc5).1
    omega
  · intro i b h1 h2 hb
    obtain ⟨z, hz, z1, z2⟩ := contiguous_cover hc5 h1 (by omega)
    have hz' := h.textOK (t := z) (by rw [hts]; simp [hz])
    unfold TextOK at hz'
    rw [hmid z hz] at hz'
    apply hz'.2
    have hil : i < d.text.length := (List.getElem?_eq_some_iff.1 hb).1
    unfold Spec.text
    rw [List.mem_drop_iff_getElem]
    refine ⟨i - z.offset, by simp; omega, ?_⟩
    have e : i - z.offset + z.offset = i := by omega
    simp only [List.getElem_take]
    rw [← (List.getElem?_eq_some_iff.1 hb).2]
    congr 1; omega
  · intro z hz hzk
    rcases List.mem_append.1 hz with hz | hz
    · have := (contiguous_le hc3).2 z hz
      have := h.nonempty (t := z) (by rw [hts]; simp [hz]) (.inr (.inl hzk))
      omega
    · rcases List.mem_cons.1 hz with rfl | hz
      · exact Nat.le_refl _
      · rw [hmid z hz] at hzk; cases hzk

theorem Doc.close_in_name (h : Doc e.uni e.caseSensitive void d.text roots ts) (hu : Utf8 cps d.text) {n : Node}
    {ps : List Node} (hf : findNodeBefore roots o = some (n, ps)) {pre post : List Tok} {t : Tok}
    (hts : ts = pre ++ t :: post) (hk : t.type = .EndTag) (h1 : t.offset < o) (h2 : o ≤ t.stop)
    (ho : d.offsetAt position = o) {r : List CompItem} (hr : doComplete e d position roots = .ok r) :
    ∃ y ∈ pre, y.type = .EndTagOpen ∧ (∀ z ∈ pre, z.type = .EndTagOpen → z.offset ≤ y.offset) ∧
      (ClosesInnermost d o (ps ++ [n]) y.offset t.stop (edits r) ∨
      ((∀ m tag, ¬ InnermostOpen o (ps ++ [n]) m tag) ∧
        edits r = (knownTags e).map fun k => (b!"/" ++ k.name, none))) := by
  have hm : t ∈ ts := by rw [hts]; simp
  obtain ⟨p, l, t0, l', s, q, c1, c2, c3, c4, rfl, c6, c7, c8, rfl⟩ := h.complete_at hf hts h1 h2 ho hr
  have hg := h.grammar hts
  rw [hk] at hg
  obtain ⟨y, y1, y2, y3, y4, y5, y6, y7⟩ := h.end_blanks hts hg
  have hk : s.tokenType = .EndTag := hk
  have h1 : s.tokenOffset < o := h1
  have h2 : o ≤ s.pos := h2
  have y4 : y.stop ≤ s.tokenOffset := y4
  unfold CompCtx.onToken at c8
  rw [hk] at c8
  simp only at c8
  unfold CompCtx.onEndTag at c8
  rw [if_pos h2] at c8
  obtain ⟨st, e1, c8⟩ := bind_ok c8
  obtain ⟨i, e2, c8⟩ := bind_ok c8
  have hst : st = s.tokenOffset - 1 := by have := subU_ok e1; omega
  subst hst
  have hi := slashBefore_spec (a := y.offset + 1) (by omega) y5 (by omega)
    (fun i b i1 i2 hb => y6 i b (by omega) (by show i < s.tokenOffset; omega) hb) e2
  subst hi
  simp only at c8
  obtain ⟨q', e3, c8⟩ := bind_ok c8
  cases c8
  have hle := (contiguous_le h.contiguous).2 y (by rw [hts]; simp [y1])
  exact ⟨y, y1, y2, y7, h.closes hu hf (by omega) (by omega) e3⟩

theorem Doc.close_in_blanks (h : Doc e.uni e.caseSensitive void d.text roots ts) (hu : Utf8 cps d.text) {n : Node}
    {ps : List Node} (hf : findNodeBefore roots o = some (n, ps)) {pre post : List Tok} {x t : Tok}
    (hts : ts = pre ++ x :: t :: post) (hx : x.type = .EndTagOpen) (hk : t.type = .Whitespace) (h1 : t.offset < o)
    (h2 : o ≤ t.stop) (ho : d.offsetAt position = o) {r : List CompItem}
    (hr : doComplete e d position roots = .ok r) :
    ClosesInnermost d o (ps ++ [n]) x.offset o (edits r) ∨
      ((∀ m tag, ¬ InnermostOpen o (ps ++ [n]) m tag) ∧
        edits r = (knownTags e).map fun k => (b!"/" ++ k.name, none)) := by
  have hts' : ts = (pre ++ [x]) ++ t :: post := by rw [hts]; simp
  obtain ⟨p, l, t0, l', s, q, c1, c2, c3, c4, rfl, c6, c7, c8, rfl⟩ := h.complete_at hf hts' h1 h2 ho hr
  have hst : s.state = .AfterOpeningEndTag := by
    obtain ⟨q0, q1, q2, g1, g2, g3, g4⟩ := h.split hts
    have hq : q1.state = .AfterOpeningEndTag := ((g1.endFacts g2).enter (by rw [← hx, ← g3]; rfl)).1
    generalize hy : s.tok = y at g4
    cases g4 with
    | @cons _ s' _ _ hs hne _ =>
      have hk' : s'.tokenType = .Whitespace := by
        have := congrArg Tok.type hy; rw [hk] at this; exact this.symm
      have : s.state = s'.state := congrArg Tok.state hy
      rw [this]
      cases scan_step hs with
      | eos h => exact absurd rfl hne
      | _ => simp_all [fin, adv]
  have hk : s.tokenType = .Whitespace := hk
  have h1 : s.tokenOffset < o := h1
  have h2 : o ≤ s.pos := h2
  unfold CompCtx.onToken at c8
  rw [hk] at c8
  simp only at c8
  unfold CompCtx.onWhitespace at c8
  rw [if_pos h2, hst] at c8
  simp only at c8
  obtain ⟨st, e1, c8⟩ := bind_ok c8
  obtain ⟨q', e3, c8⟩ := bind_ok c8
  cases c8
  have hmx : x ∈ ts := by rw [hts]; simp
  have hle := (contiguous_le h.contiguous).2 x hmx
  have hlen : x.stop = x.offset + 2 := by
    have hok := h.textOK hmx
    unfold TextOK at hok
    rw [hx] at hok
    have := congrArg List.length hok
    simp [Spec.text] at this
    omega
  have hadj : s.tokenOffset = x.stop := by
    have hc := h.contiguous
    rw [hts] at hc
    obtain ⟨_, _, hc, _⟩ := contiguous_split hc
    exact hc.2.2.1
  have := subU_ok e1
  have e4 : st = x.offset + 1 := by omega
  subst e4
  exact h.closes hu hf (by omega) (by omega) e3

theorem Doc.open_innermost (h : Doc u cs void src roots ts) {x : Tok} (hx : x ∈ ts) (ht : x.type = .EndTagOpen)
    (hc : NoCut ts x.stop) {n m : Node} {ps : List Node} (hf : findNodeBefore roots x.stop = some (n, ps)) {tag : Str}
    (hi : InnermostOpen x.stop (ps ++ [n]) m tag) :
    InForest roots m ∧ m.tag = some tag ∧ OpenHere x.offset x.stop m ∧
      ∀ k, InForest roots k → OpenHere x.offset x.stop k → k.tag ≠ none → k.start ≤ m.start := by
  obtain ⟨outer, inner, he, i1, i2, i3⟩ := hi
  have hl : n :: ps.reverse = inner.reverse ++ m :: outer.reverse := by
    have := congrArg List.reverse he
    simpa using this
  have c2 := (Props.C23_last_node_before _ _ _ _ _ _ _ _ h.parse hf).2.1
  have hck := chain_up c2 hl
  have hm := (chain_inForest hck).1
  refine ⟨hm, i1, h.open_reach hx ht hc hf hl (isOpen_iff.2 i2), fun k hk hok hkt => ?_⟩
  have hkm : k ∈ ps ++ [n] := by
    rcases h.open_found hx ht hc hf hk hok with rfl | h1
    · simp
    · simp [h1]
  rw [he] at hkm
  rcases List.mem_append.1 hkm with h1 | h1
  · exact Nat.le_of_lt (h.inner_gt hk (chain_below hck (by simpa using h1))).2
  · rcases List.mem_cons.1 h1 with rfl | h1
    · exact Nat.le_refl _
    · rcases i3 k h1 with h2 | h2
      · exact absurd h2 hkt
      · exact absurd hok.2.2 h2

end Html
