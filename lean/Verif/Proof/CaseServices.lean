import Verif.Spec.CaseServices
import Verif.Props.LetterCase
import Verif.Model.SelectionRange

/-! # Services on documents that differ in letter case only -/

namespace Html
open Spec Props

/-! ### Positions -/

theorem same_isBreak {x y : Nat} {a b : Str} (h : lowerByte x = lowerByte y) (hs : SameLetters a b) :
    isBreak y b = isBreak x a := by
  have h10 := low_iff h (k := 10) (by decide)
  have h13 := low_iff h (k := 13) (by decide)
  have hh := same_at hs 0 (k := 10) (by decide)
  unfold isBreak
  rw [List.head?_eq_getElem?, List.head?_eq_getElem?]
  have e1 : (y == 10) = (x == 10) := by rw [Bool.eq_iff_iff, beq_iff_eq, beq_iff_eq]; exact h10.symm
  have e2 : (y == 13) = (x == 13) := by rw [Bool.eq_iff_iff, beq_iff_eq, beq_iff_eq]; exact h13.symm
  have e3 : (b[0]? != some 10) = (a[0]? != some 10) := by
    rw [Bool.eq_iff_iff, bne_iff_ne, bne_iff_ne, ne_eq, ne_eq]
    rw [hh]
  rw [e1, e2, e3]

theorem same_units {x y : Nat} (h : lowerByte x = lowerByte y) : units y = units x := by
  unfold units
  rw [low_cont h]
  have : 240 ≤ y ↔ 240 ≤ x := by
    by_cases hx : x < 128
    · have := (low_ascii h).1 hx; omega
    · rw [low_big h hx]
  simp only [this]

theorem same_refPosAt {a b : Str} (h : SameLetters a b) (o : Nat) : refPosAt b o = refPosAt a o := by
  induction a generalizing b o with
  | nil => rw [same_nil h]
  | cons x a ih =>
    rcases same_cases h with ⟨h, _⟩ | ⟨x', y, a', b', he, rfl, h1, h2⟩
    · cases h
    · cases he
      cases o with
      | zero => simp only [refPosAt]
      | succ o => simp only [refPosAt, ih h2, same_isBreak h1 h2, same_units h1]

theorem same_refOffsetAt {a b : Str} (h : SameLetters a b) (l c : Nat) : refOffsetAt b l c = refOffsetAt a l c := by
  induction a generalizing b l c with
  | nil => rw [same_nil h]
  | cons x a ih =>
    rcases same_cases h with ⟨h, _⟩ | ⟨x', y, a', b', he, rfl, h1, h2⟩
    · cases h
    · cases he
      cases l with
      | zero => simp only [refOffsetAt, ih h2, same_isBreak h1 h2, same_units h1, low_cont h1]
      | succ l => simp only [refOffsetAt, ih h2, same_isBreak h1 h2]

/-! ### Nodes -/

/-- A node and the nodes around it, as skeletons. -/
def skel (x : Node × List Node) : Node × List Node := (skeleton x.1, skeletons x.2)

theorem skeleton_start (n : Node) : (skeleton n).start = n.start := by rw [skeleton_eq]
theorem skeleton_stop (n : Node) : (skeleton n).stop = n.stop := by rw [skeleton_eq]

theorem firstIdx_skeletons (p : Nat → Bool) (l : List Node) :
    firstIdx (fun ch => p ch.start) (skeletons l) = firstIdx (fun ch => p ch.start) l := by
  induction l with
  | nil => rfl
  | cons n l ih => simp only [skeletons, firstIdx, skeleton_start, ih]

mutual
theorem findAt_skeleton (o : Nat) : ∀ n : Node, Node.findAt o (skeleton n) = skel (Node.findAt o n)
  | ⟨tag, start, stop, children, closed, ste, ets, attrs⟩ => by
    simp only [skeleton, Node.findAt]
    rw [firstIdx_skeletons (fun s => decide (o < s)), findAtNth_skeletons o _ children]
    split
    · cases Node.findAtNth o (firstIdx (fun ch => decide (o < ch.start)) children - 1) children with
      | none => rfl
      | some x => rfl
    · rfl
theorem findAtNth_skeletons (o : Nat) : ∀ (k : Nat) (l : List Node),
    Node.findAtNth o k (skeletons l) = (Node.findAtNth o k l).map skel
  | _, [] => by simp only [skeletons, Node.findAtNth]; rfl
  | 0, n :: l => by
    simp only [skeletons, Node.findAtNth, skeleton_start, skeleton_stop, findAt_skeleton o n]
    split <;> rfl
  | k + 1, n :: l => by
    simp only [skeletons, Node.findAtNth, findAtNth_skeletons o k l]
end

theorem findNodeAt_skeletons (o : Nat) (l : List Node) : findNodeAt (skeletons l) o = (findNodeAt l o).map skel := by
  unfold findNodeAt
  simp only [firstIdx_skeletons (fun s => decide (o < s)), findAtNth_skeletons]
  split <;> rfl

/-- What two nodes of the same skeleton have in common. -/
structure NodeAlike (n n' : Node) : Prop where
  len : n'.tag.map List.length = n.tag.map List.length
  start : n'.start = n.start
  stop : n'.stop = n.stop
  ste : n'.startTagEnd = n.startTagEnd
  ets : n'.endTagStart = n.endTagStart

theorem nodeAlike {n n' : Node} (h : skeleton n' = skeleton n) : NodeAlike n n' := by
  rw [skeleton_eq, skeleton_eq] at h
  injection h with h1 h2 h3 h4 h5 h6 h7
  refine ⟨?_, h2, h3, h6, h7⟩
  have := congrArg (Option.map List.length) h1
  rw [Option.map_map, Option.map_map] at this
  have hl : List.length ∘ asciiLower = List.length := by
    funext x; simp [asciiLower]
  rw [hl] at this
  exact this

theorem findNodeAt_alike {roots roots' : List Node} (h : skeletons roots' = skeletons roots) (o : Nat) :
    (findNodeAt roots o = none ∧ findNodeAt roots' o = none) ∨
    ∃ n ps n' ps', findNodeAt roots o = some (n, ps) ∧ findNodeAt roots' o = some (n', ps') ∧ NodeAlike n n' ∧
      skeletons ps' = skeletons ps := by
  have h1 := findNodeAt_skeletons o roots
  have h2 := findNodeAt_skeletons o roots'
  rw [h, h1] at h2
  cases ha : findNodeAt roots o with
  | none =>
    rw [ha] at h2
    cases hb : findNodeAt roots' o with
    | none => exact .inl ⟨rfl, rfl⟩
    | some x => rw [hb] at h2; cases h2
  | some x =>
    rw [ha] at h2
    cases hb : findNodeAt roots' o with
    | none => rw [hb] at h2; cases h2
    | some y =>
      rw [hb] at h2
      simp only [Option.map_some, Option.some.injEq, skel, Prod.mk.injEq] at h2
      exact .inr ⟨x.1, x.2, y.1, y.2, rfl, rfl, nodeAlike h2.1.symm, h2.2.symm⟩

variable {d d' : TextDoc} {roots roots' : List Node}

theorem linked_alike (hd : SameButCase d d') (h : skeletons roots' = skeletons roots) (p : Pos) :
    findLinkedEditingRanges d' p roots' = findLinkedEditingRanges d p roots := by
  unfold findLinkedEditingRanges
  rw [hd.offset, hd.pos]
  dsimp only
  rcases findNodeAt_alike h (d.offsetAt p) with ⟨h1, h2⟩ | ⟨n, ps, n', ps', h1, h2, h3, _⟩
  · rw [h1, h2]
  · rw [h1, h2]
    have hl := h3.len
    simp only [Option.bind_eq_bind, Option.bind_some, h3.ets, h3.start]
    cases ht : n.tag <;> cases ht' : n'.tag <;> rw [ht, ht'] at hl <;> simp only [Option.map_some, Option.map_none] at hl <;>
      first | rfl | cases hl | skip
    simp only [Option.some.injEq] at hl
    simp only [hl]

theorem matching_alike (hd : SameButCase d d') (h : skeletons roots' = skeletons roots) (p : Pos) :
    findMatchingTagPosition d' p roots' = findMatchingTagPosition d p roots := by
  unfold findMatchingTagPosition
  rw [hd.offset, hd.pos]
  dsimp only
  rcases findNodeAt_alike h (d.offsetAt p) with ⟨h1, h2⟩ | ⟨n, ps, n', ps', h1, h2, h3, _⟩
  · rw [h1, h2]
  · rw [h1, h2]
    have hl := h3.len
    simp only [Option.bind_eq_bind, Option.bind_some, h3.ets, h3.start]
    cases ht : n.tag <;> cases ht' : n'.tag <;> rw [ht, ht'] at hl <;> simp only [Option.map_some, Option.map_none] at hl <;>
      first | rfl | cases hl | skip
    simp only [Option.some.injEq] at hl
    simp only [Option.bind_some, hl]

theorem rename_alike (hd : SameButCase d d') (h : skeletons roots' = skeletons roots) (p : Pos) (name : Str) :
    doRename d' p name roots' = doRename d p name roots := by
  unfold doRename isWithinTagRange
  rw [hd.offset, hd.pos]
  dsimp only
  rcases findNodeAt_alike h (d.offsetAt p) with ⟨h1, h2⟩ | ⟨n, ps, n', ps', h1, h2, h3, _⟩
  · rw [h1, h2]
  · rw [h1, h2]
    have hl := h3.len
    simp only [Option.bind_eq_bind, Option.bind_some, h3.ets, h3.start]
    cases ht : n.tag <;> cases ht' : n'.tag <;> rw [ht, ht'] at hl <;> simp only [Option.map_some, Option.map_none] at hl <;>
      first | rfl | cases hl | skip
    simp only [Option.some.injEq] at hl
    simp only [Option.bind_some, hl]

/-! ### Highlights -/

theorem scanTo_alike {c c' : Cfg} (h : Alike c c') (t : TT) (f : Nat) (s : Sc) (l : Option Str)
    (hl : s.lastType.isSome = l.isSome) : ER (scanTo c t f s) (scanTo c' t f (ty s l)) := by
  induction f generalizing s l with
  | zero => exact rfl
  | succ f ih =>
    unfold scanTo
    have hs := alike_scan h s l hl
    cases h1 : scan c s with
    | error e =>
      cases h2 : scan c' (ty s l) with
      | error e' => rw [h1, h2] at hs; exact hs
      | ok s' => rw [h1, h2] at hs; exact hs.elim
    | ok s1 =>
      cases h2 : scan c' (ty s l) with
      | error e' => rw [h1, h2] at hs; exact hs.elim
      | ok s' =>
        rw [h1, h2] at hs
        obtain ⟨l1, rfl, hl1⟩ := hs
        show ER (if s1.tokenType = .EOS ∨ s1.tokenType = t then _ else _) (if s1.tokenType = .EOS ∨ s1.tokenType = t then _ else _)
        split
        · exact ⟨l1, rfl, hl1⟩
        · exact ih s1 l1 hl1

theorem tagNameRange_alike {u : Uni} (hu : LowersLetters u) (hd : SameButCase d d') (t : TT) (o : Nat) :
    getTagNameRange u false d' t o = getTagNameRange u false d t o := by
  unfold getTagNameRange
  have ha : Alike ⟨u, d.text, false, false⟩ ⟨u, d'.text, false, false⟩ := alike_of hu hd.letters hd.raw
  have hs := scanTo_alike ha t (2 * d.text.length + 1) (.new o .WithinContent) none rfl
  have hty : ty (.new o .WithinContent) none = .new o .WithinContent := rfl
  rw [hty] at hs
  dsimp only
  rw [← same_length hd.letters, hd.pos]
  cases h1 : scanTo ⟨u, d.text, false, false⟩ t (2 * d.text.length + 1) (.new o .WithinContent) with
  | error e =>
    cases h2 : scanTo ⟨u, d'.text, false, false⟩ t (2 * d.text.length + 1) (.new o .WithinContent) with
    | error e' => rw [h1, h2] at hs; cases hs; rfl
    | ok s' => rw [h1, h2] at hs; exact hs.elim
  | ok s1 =>
    cases h2 : scanTo ⟨u, d'.text, false, false⟩ t (2 * d.text.length + 1) (.new o .WithinContent) with
    | error e' => rw [h1, h2] at hs; exact hs.elim
    | ok s' =>
      rw [h1, h2] at hs
      obtain ⟨l1, rfl, hl1⟩ := hs
      rfl

theorem highlights_alike {u : Uni} (hu : LowersLetters u) (hd : SameButCase d d') (h : skeletons roots' = skeletons roots)
    (p : Pos) : findDocumentHighlights u false d' p roots' = findDocumentHighlights u false d p roots := by
  unfold findDocumentHighlights
  rw [hd.offset]
  rcases findNodeAt_alike h (d.offsetAt p) with ⟨h1, h2⟩ | ⟨n, ps, n', ps', h1, h2, h3, _⟩
  · rw [h1, h2]
  · rw [h1, h2]
    have hl := congrArg Option.isNone h3.len
    simp only [Option.isNone_map] at hl
    simp only [hl, Node.isSelfClosing, h3.ets, h3.start, tagNameRange_alike hu hd]
    rfl

/-! ### Selection ranges -/

theorem raw_slice {a b : Str} (h : SameRawTags a b) (i j : Nat) :
    SameRawTags ((a.take j).drop i) ((b.take j).drop i) := by
  intro o lit hl
  have h1 := h (i + o) lit hl
  rw [List.drop_drop, List.drop_drop, List.drop_take, List.drop_take, Bool.eq_iff_iff, List.isPrefixOf_iff_prefix,
    List.isPrefixOf_iff_prefix, List.prefix_take_iff, List.prefix_take_iff]
  rw [Bool.eq_iff_iff, List.isPrefixOf_iff_prefix, List.isPrefixOf_iff_prefix] at h1
  rw [h1]

theorem content_alike (hd : SameButCase d d') (r : Range) :
    (∃ x y, d.content r = .ok x ∧ d'.content r = .ok y ∧ SameLetters x y ∧ SameRawTags x y) ∨
    (d.content r = .error .slice ∧ d'.content r = .error .slice) := by
  unfold TextDoc.content
  rw [hd.offset]
  rcases same_slice hd.letters (d.offsetAt r.start) (d.offsetAt r.stop) with ⟨x, y, h1, h2, h3⟩ | h1
  · refine .inl ⟨x, y, h1, h2, h3, ?_⟩
    unfold sliceStr at h1 h2
    split at h1
    · split at h2
      · cases h1; cases h2
        exact raw_slice hd.raw _ _
      · cases h2
    · cases h1
  · exact .inr h1

theorem same_eq {a b lit : Str} (h : SameLetters a b) (hl : ∀ k ∈ lit, NoLetter k) : b = lit ↔ a = lit := by
  have key : ∀ {a b lit : Str}, SameLetters a b → (∀ k ∈ lit, NoLetter k) → a = lit → b = lit := by
    intro a b lit h hl ha
    subst ha
    induction a generalizing b with
    | nil => exact same_nil h
    | cons x a ih =>
      rcases same_cases h with ⟨h, _⟩ | ⟨x', y, a', b', he, rfl, h1, h2⟩
      · cases h
      · cases he
        rw [ih h2 fun k hk => hl k (by simp [hk]), (low_iff h1 (hl x (by simp))).1 rfl]
  exact ⟨key h.symm hl, key h hl⟩

theorem same_head {a b : Str} (h : SameLetters a b) {k : Nat} (hk : NoLetter k) : (b.head? == some k) = (a.head? == some k) := by
  rw [List.head?_eq_getElem?, List.head?_eq_getElem?, Bool.eq_iff_iff, beq_iff_eq, beq_iff_eq]
  exact iff_of_eq (same_at h 0 hk)

theorem same_last {a b : Str} (h : SameLetters a b) {k : Nat} (hk : NoLetter k) :
    (b.getLast? == some k) = (a.getLast? == some k) := by
  rw [List.getLast?_eq_getElem?, List.getLast?_eq_getElem?, Bool.eq_iff_iff, beq_iff_eq, beq_iff_eq, same_length h]
  exact iff_of_eq (same_at h _ hk)

theorem bothQuotes_alike {a b : Str} (h : SameLetters a b) : bothQuotes b = bothQuotes a := by
  unfold bothQuotes
  rw [same_head h (by decide), same_head h (by decide), same_last h (by decide), same_last h (by decide)]

theorem attrSelStep_alike {src src' : Str} (h : SameLetters src src') (rel : Nat) (a : AttrSel) (t : Tok) :
    attrSelStep src' rel a t = attrSelStep src rel a t := by
  unfold attrSelStep
  cases t.type <;> try rfl
  dsimp only
  split
  · rcases same_slice h t.offset t.stop with ⟨x, y, h1, h2, h3⟩ | ⟨h1, h2⟩
    · rw [h1, h2]
      simp only [bind, Except.bind, bothQuotes_alike h3]
    · rw [h1, h2]
  · rfl

theorem attrSelLoop_alike {c c' : Cfg} (h : Alike c c') (rel f : Nat) (a : AttrSel) (s : Sc) (l : Option Str)
    (hl : s.lastType.isSome = l.isSome) : attrSelLoop c' rel f a (ty s l) = attrSelLoop c rel f a s := by
  induction f generalizing s l a with
  | zero => rfl
  | succ f ih =>
    have hs := alike_scan h s l hl
    unfold attrSelLoop
    cases h1 : scan c s with
    | error e =>
      cases h2 : scan c' (ty s l) with
      | error e' => rw [h1, h2] at hs; cases hs; rfl
      | ok s' => rw [h1, h2] at hs; exact hs.elim
    | ok s1 =>
      cases h2 : scan c' (ty s l) with
      | error e' => rw [h1, h2] at hs; exact hs.elim
      | ok s' =>
        rw [h1, h2] at hs
        obtain ⟨l1, rfl, hl1⟩ := hs
        show (if s1.tokenType = .EOS then .ok a else attrSelStep c'.src rel a s1.tok >>= fun a1 => attrSelLoop c' rel f a1 (ty s1 l1)) =
          (if s1.tokenType = .EOS then .ok a else attrSelStep c.src rel a s1.tok >>= fun a1 => attrSelLoop c rel f a1 s1)
        rw [attrSelStep_alike h.src]
        split
        · rfl
        · cases attrSelStep c.src rel a s1.tok with
          | error e => rfl
          | ok a1 => exact ih a1 s1 l1 hl1

theorem attributeRanges_alike {u : Uni} (hu : LowersLetters u) (hd : SameButCase d d') {n n' : Node} (hn : NodeAlike n n')
    (cur : Nat) : attributeRanges u false d' n' cur = attributeRanges u false d n cur := by
  unfold attributeRanges
  rw [hn.start, hn.stop, hd.pos]
  rcases content_alike hd ⟨d.posAt n.start, d.posAt n.stop⟩ with ⟨x, y, h1, h2, h3, h4⟩ | ⟨h1, h2⟩
  · rw [h1, h2]
    have ha : Alike ⟨u, x, false, false⟩ ⟨u, y, false, false⟩ := alike_of hu h3 h4
    have hl := fun rel => attrSelLoop_alike ha rel (2 * x.length + 2) ⟨[], false, 0⟩ (.new 0 .WithinContent) none rfl
    have hty : ty (.new 0 .WithinContent) none = .new 0 .WithinContent := rfl
    rw [hty] at hl
    simp only [bind, Except.bind, ← same_length h3, hl]
  · rw [h1, h2]

theorem nodeRanges_alike {n n' : Node} (hn : NodeAlike n n') : nodeRanges n' = nodeRanges n := by
  unfold nodeRanges
  rw [hn.start, hn.stop, hn.ste, hn.ets]

theorem nodeRanges_skeletons {l l' : List Node} (h : skeletons l' = skeletons l) : l'.map nodeRanges = l.map nodeRanges := by
  induction l generalizing l' with
  | nil =>
    cases l' with
    | nil => rfl
    | cons => simp [skeletons] at h
  | cons n l ih =>
    cases l' with
    | nil => simp [skeletons] at h
    | cons n' l' =>
      simp only [skeletons, List.cons.injEq] at h
      rw [List.map_cons, List.map_cons, ih h.2, nodeRanges_alike (nodeAlike h.1)]

theorem skeletons_map (l : List Node) : skeletons l = l.map skeleton := by
  induction l with
  | nil => rfl
  | cons n l ih => rw [skeletons, ih]; rfl

theorem rootsRange_alike (h : skeletons roots' = skeletons roots) : rootsRange roots' = rootsRange roots := by
  rw [skeletons_map, skeletons_map] at h
  have h1 := congrArg List.head? h
  have h2 := congrArg List.getLast? h
  rw [List.head?_map, List.head?_map] at h1
  rw [List.getLast?_map, List.getLast?_map] at h2
  unfold rootsRange
  cases ha : roots.head? <;> cases hb : roots'.head? <;> rw [ha, hb] at h1 <;> simp only [Option.map_none, Option.map_some] at h1 <;>
    first | rfl | cases h1 | skip
  cases ha : roots.getLast? <;> cases hb : roots'.getLast? <;> rw [ha, hb] at h2 <;>
    simp only [Option.map_none, Option.map_some] at h2 <;> first | rfl | cases h2 | skip
  simp only [Option.some.injEq] at h1 h2
  dsimp only
  rw [(nodeAlike h1).start, (nodeAlike h2).stop]

theorem allParentRanges_alike {ps ps' : List Node} (hp : skeletons ps' = skeletons ps) (h : skeletons roots' = skeletons roots) :
    allParentRanges ps' roots' = allParentRanges ps roots := by
  unfold allParentRanges
  rw [rootsRange_alike h, List.map_reverse, List.map_reverse, nodeRanges_skeletons hp]

theorem applicableRanges_alike {u : Uni} (hu : LowersLetters u) (hd : SameButCase d d') (h : skeletons roots' = skeletons roots)
    (p : Pos) : applicableRanges u false d' roots' p = applicableRanges u false d roots p := by
  unfold applicableRanges
  rw [hd.offset]
  dsimp only
  rcases findNodeAt_alike h (d.offsetAt p) with ⟨h1, h2⟩ | ⟨n, ps, n', ps', h1, h2, h3, h4⟩
  · rw [h1, h2]
    dsimp only
    rw [allParentRanges_alike rfl h]
  · rw [h1, h2]
    dsimp only
    rw [h3.ste, h3.ets, allParentRanges_alike h4 h]
    cases n.startTagEnd with
    | none => rfl
    | some ste =>
      cases n.endTagStart with
      | none =>
        dsimp only
        unfold voidRanges
        rw [h3.start, h3.stop, hd.pos]
        split
        · rfl
        · cases subU ste 2 with
          | error e => rfl
          | ok a =>
            simp only [bind, Except.bind]
            rcases content_alike hd ⟨d.posAt a, d.posAt ste⟩ with ⟨x, y, g1, g2, g3, _⟩ | ⟨g1, g2⟩
            · rw [g1, g2]
              have : (y = b!"/>") ↔ (x = b!"/>") := same_eq g3 (by decide)
              simp only [this, attributeRanges_alike hu hd h3]
            · rw [g1, g2]
      | some ets =>
        dsimp only
        unfold pairRanges
        simp only [h3.start, h3.stop, attributeRanges_alike hu hd h3]

theorem selection_alike {u : Uni} (hu : LowersLetters u) (hd : SameButCase d d') (h : skeletons roots' = skeletons roots)
    (ps : List Pos) : getSelectionRanges u false d' roots' ps = getSelectionRanges u false d roots ps := by
  unfold getSelectionRanges
  congr 1
  funext p
  unfold selectionRange
  have hs : selStep d' = selStep d := by funext r s; unfold selStep; rw [hd.pos]
  rw [applicableRanges_alike hu hd h, hs]

/-! ### Symbols -/

theorem rangesAll_append (a b : List Symbol) : Symbol.rangesAll (a ++ b) = Symbol.rangesAll a ++ Symbol.rangesAll b := by
  induction a with
  | nil => rfl
  | cons x a ih => show Symbol.ranges x :: Symbol.rangesAll (a ++ b) = _; rw [ih]; rfl

mutual
theorem symbols_skeleton (hd : d'.posAt = d.posAt) : ∀ (n : Node) (acc acc' : List Symbol),
    Symbol.rangesAll acc' = Symbol.rangesAll acc →
    Symbol.rangesAll (provideSymbols d' (skeleton n) acc') = Symbol.rangesAll (provideSymbols d n acc)
  | ⟨tag, start, stop, children, closed, ste, ets, attrs⟩, acc, acc', h => by
    simp only [skeleton, provideSymbols, rangesAll_append, h, Symbol.rangesAll, Symbol.ranges, hd,
      symbolsAll_skeletons hd children [] [] rfl]
theorem symbolsAll_skeletons (hd : d'.posAt = d.posAt) : ∀ (l : List Node) (acc acc' : List Symbol),
    Symbol.rangesAll acc' = Symbol.rangesAll acc →
    Symbol.rangesAll (provideSymbolsAll d' (skeletons l) acc') = Symbol.rangesAll (provideSymbolsAll d l acc)
  | [], acc, acc', h => by simpa only [skeletons, provideSymbolsAll] using h
  | n :: l, acc, acc', h => by
    simp only [skeletons, provideSymbolsAll]
    exact symbolsAll_skeletons hd l _ _ (symbols_skeleton hd n acc acc' h)
end

theorem symbols_alike (hd : SameButCase d d') (h : skeletons roots' = skeletons roots) :
    Symbol.rangesAll (findDocumentSymbols2 d' roots') = Symbol.rangesAll (findDocumentSymbols2 d roots) := by
  unfold findDocumentSymbols2
  rw [← symbolsAll_skeletons (d := d') (d' := d') rfl roots' [] [] rfl, h, symbolsAll_skeletons hd.pos roots [] [] rfl]

end Html
