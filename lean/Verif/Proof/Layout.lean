import Verif.Proof.FormatRange
import Verif.Spec.Layout

/-! # The layout of formatted documents -/

namespace Html
open Spec

theorem spaced_eq (ws : List Str) : joinWords ws = spaced ws := by
  induction ws with
  | nil => rfl
  | cons w ws ih =>
    cases ws with
    | nil => rfl
    | cons v ws => rw [joinWords, spaced, ih]; simp

theorem indentation_eq (o : FormatOptions) (k : Nat) : indentText o k = indentation o k := rfl

theorem attrIndentation_eq (o : FormatOptions) (k : Nat) : attrIndent o k = attrIndentation o k := by
  unfold attrIndent attrIndentation
  rw [indentation_eq]
  congr 1
  cases h : o.wrapAttributesIndentSize with
  | none => simp
  | some n =>
    simp only [Option.getD_some, Option.some.injEq]
    split
    · rfl
    · cases n <;> simp

/-! ### Tags -/

theorem insertAttr_sum (f : Str × Attr → Nat) (x : Str × Attr) (l : List (Str × Attr)) :
    ((insertAttr x l).map f).sum = f x + (l.map f).sum := by
  induction l with
  | nil => rfl
  | cons y l ih =>
    unfold insertAttr
    split
    · rfl
    · simp only [List.map_cons, List.sum_cons, ih]; omega

theorem byOrder_sum (f : Str × Attr → Nat) (n : Node) :
    (n.attributesByOrder.map f).sum = (n.attributes.map f).sum := by
  unfold Node.attributesByOrder
  induction n.attributes with
  | nil => rfl
  | cons x l ih => rw [List.foldr_cons, insertAttr_sum, ih]; rfl

theorem leftTagLen_eq (o : FormatOptions) (k : Nat) (n : Node) (tag : Str) :
    leftTagLen o k n tag = (oneLine o k n tag).length := by
  unfold leftTagLen oneLine
  have h1 : (n.attributesByOrder.flatMap (fun x => b!" " ++ attrText x)).length =
      (n.attributes.map (fun x => match x.2.value with
      | some v => 1 + x.1.length + 1 + v.length
      | none => 1 + x.1.length)).sum := by
    rw [← byOrder_sum, List.length_flatMap]
    congr 1
    apply List.map_congr_left
    rintro ⟨a, v, i⟩ _
    cases v <;> simp [attrText] <;> omega
  have h2 : (if n.isSelfClosing then 3 else 1) = (if n.endTagStart = none then b!" />" else b!">").length := by
    unfold Node.isSelfClosing
    cases n.endTagStart <;> rfl
  simp only [List.length_append, h1, ← h2, indentation_eq]
  rfl

theorem attrsWrap_iff (o : FormatOptions) (k : Nat) (n : Node) (tag : Str) :
    attrsWrap o k n tag = true ↔ WrapsTag o k n tag := by
  unfold attrsWrap WrapsTag TooLong
  rw [leftTagLen_eq]
  cases o.wrapLineLength <;> simp

theorem nodeWrap_iff {o : FormatOptions} {src : Str} {k : Nat} {n : Node} {tag : Str} {s e : Nat} {w : Bool}
    (h : nodeWrap o src k n tag s e = .ok w) : w = true ↔ Wraps o k n tag (bytesIn src s e) := by
  unfold nodeWrap at h
  obtain ⟨t, h1, h⟩ := bind_ok h
  obtain ⟨h2, h3, _, _, rfl⟩ := sliceStr_ok h1
  unfold Wraps TooLong
  split at h
  · rename_i hm
    cases h
    simp [hm]
  · rename_i hm
    have hlen : (bytesIn src s e).length = e - s := by unfold bytesIn; simp; omega
    split at h
    · rename_i ho
      cases h
      simp [hm, ho]
    · rename_i w' ho
      have : subU e s = .ok (e - s) := by unfold subU; rw [if_pos h2]
      rw [this] at h
      cases h
      rw [leftTagLen_eq, decide_eq_true_iff, hlen]
      simp only [ho, hm, false_or, Option.some.injEq, exists_eq_left', List.length_append]
      simp only [List.length_cons, List.length_nil]
      omega

theorem startText_self (o : FormatOptions) (k : Nat) (n : Node) (tag : Str) (hn : n.endTagStart = none) :
    openText o k n tag ++ (if attrsWrap o k n tag then [10] ++ indentText o k ++ b!"/>" else b!" />") =
      startText o k n tag := by
  unfold startText openText attrsText
  by_cases h : WrapsTag o k n tag
  · have h' := (attrsWrap_iff o k n tag).2 h
    rw [if_pos h]
    unfold manyLines
    simp only [h', if_true, hn, attrIndentation_eq, indentation_eq]
    simp only [List.append_assoc]
  · have h' : attrsWrap o k n tag = false := by
      cases hc : attrsWrap o k n tag
      · rfl
      · exact absurd ((attrsWrap_iff o k n tag).1 hc) h
    rw [if_neg h]
    unfold oneLine
    simp [h', hn, indentation_eq]

theorem startText_open (o : FormatOptions) (k : Nat) (n : Node) (tag : Str) (hn : n.endTagStart ≠ none) :
    openText o k n tag ++ (if attrsWrap o k n tag then [10] ++ indentText o k else []) ++ b!">" =
      startText o k n tag := by
  unfold startText openText attrsText
  by_cases h : WrapsTag o k n tag
  · have h' := (attrsWrap_iff o k n tag).2 h
    rw [if_pos h]
    unfold manyLines
    simp only [h', if_true, hn, if_false, attrIndentation_eq, indentation_eq]
    simp only [List.append_assoc]
  · have h' : attrsWrap o k n tag = false := by
      cases hc : attrsWrap o k n tag
      · rfl
      · exact absurd ((attrsWrap_iff o k n tag).1 hc) h
    rw [if_neg h]
    unfold oneLine
    simp [h', hn, indentation_eq]

/-! ### Lines -/

theorem linesOf_exists (text : Str) : ∃ ls, LinesOf text ls := by
  generalize hn : text.length = n
  induction n using Nat.strongRecOn generalizing text with
  | ind n ih =>
    rcases line_cases text with h | ⟨a, b, rfl, h2⟩
    · exact ⟨[text], by simp, by simpa using h, rfl⟩
    · obtain ⟨ls, h3, h4, h5⟩ := ih b.length (by simp at hn; omega) b rfl
      refine ⟨a :: ls, by simp, ?_, ?_⟩
      · intro l hl
        rcases List.mem_cons.1 hl with rfl | hl
        · exact h2
        · exact h4 l hl
      · cases ls with
        | nil => exact absurd rfl h3
        | cons c ls => rw [unlines, ← h5]; · simp
                       · simp

theorem linesOf_unlines (init : List Str) (z : Str) (h : ∀ l ∈ init, 10 ∉ l) (hz : 10 ∉ z) :
    linesOf (unlines (init ++ [z])) = init ++ (if z = [] then [] else [z]) := by
  induction init with
  | nil =>
    simp only [List.nil_append, unlines]
    split
    · rename_i h; rw [h]; rfl
    · rename_i h; exact linesOf_last hz h
  | cons a l ih =>
    have e : unlines (a :: l ++ [z]) = a ++ 10 :: unlines (l ++ [z]) := by
      cases l with
      | nil => simp [unlines]
      | cons b l => simp [unlines]
    rw [e, linesOf_split (h a (by simp)), ih (fun x hx => h x (by simp [hx]))]
    rfl

theorem unlines_last (init : List Str) (z : Str) (hi : init ≠ []) (hz : 10 ∉ z) :
    (unlines (init ++ [z])).getLast? = some 10 ↔ z = [] := by
  have e : ∃ r, unlines (init ++ [z]) = r ++ 10 :: z := by
    clear hz
    induction init with
    | nil => exact absurd rfl hi
    | cons a l ih =>
      cases l with
      | nil => exact ⟨a, by simp [unlines]⟩
      | cons b l =>
        obtain ⟨r, hr⟩ := ih (by simp)
        exact ⟨a ++ [10] ++ r, by rw [List.cons_append, unlines, hr]; · simp
                                  · simp⟩
  obtain ⟨r, hr⟩ := e
  rw [hr]
  cases z with
  | nil => simp
  | cons c z =>
    simp only [List.getLast?_append, List.getLast?_cons_cons, reduceCtorEq, iff_false]
    intro h
    have hm : 10 ∈ c :: z := by
      have h0 : (c :: z).getLast? = some 10 := by
        rcases h1 : (c :: z).getLast? with _ | x
        · simp at h1
        · rw [h1] at h; simpa using h
      exact List.mem_of_getLast? h0
    exact hz hm

/-! ### Empty lines -/

/-- The lines of words, where `kept` blank lines have been seen. -/
def layLines (o : FormatOptions) (k : Nat) : Nat → List (List Str) → Str
  | _, [] => []
  | kept, w :: l =>
    if w = [] then
      (if o.preserveNewLines ∧ o.maxPreserveNewLines.all (fun v => v > kept) then emptyLines o k 1 else []) ++
        layLines o k (kept + 1) l
    else b!"\n" ++ indentation o k ++ spaced w ++ layLines o k 0 l

theorem emptyLines_add (o : FormatOptions) (k a b : Nat) :
    emptyLines o k (a + b) = emptyLines o k a ++ emptyLines o k b := by
  unfold emptyLines
  rw [← List.flatten_append, List.replicate_append_replicate]

theorem keptEmpty_succ (o : FormatOptions) (a : Nat) : keptEmpty o (a + 1) = keptEmpty o a +
    if o.preserveNewLines ∧ o.maxPreserveNewLines.all (fun v => v > a) then 1 else 0 := by
  unfold keptEmpty
  cases o.preserveNewLines
  · simp
  · cases o.maxPreserveNewLines with
    | none => simp
    | some m =>
      simp only [if_true, true_and, Option.all_some, decide_eq_true_eq]
      split <;> omega

theorem layLines_blank (o : FormatOptions) (k m kept : Nat) (l : List (List Str)) :
    ∃ c, keptEmpty o (kept + m) = keptEmpty o kept + c ∧
      layLines o k kept (List.replicate m [] ++ l) = emptyLines o k c ++ layLines o k (kept + m) l := by
  induction m generalizing kept with
  | zero => exact ⟨0, rfl, rfl⟩
  | succ m ih =>
    obtain ⟨c, h1, h2⟩ := ih (kept + 1)
    rw [List.replicate_succ, List.cons_append, layLines, if_pos rfl, h2]
    have h3 := keptEmpty_succ o kept
    split
    · rename_i hc
      rw [if_pos hc] at h3
      refine ⟨1 + c, ?_, ?_⟩
      · rw [show kept + (m + 1) = kept + 1 + m by omega, h1, h3]; omega
      · rw [emptyLines_add, List.append_assoc, show kept + (m + 1) = kept + 1 + m by omega]
    · rename_i hc
      rw [if_neg hc] at h3
      refine ⟨c, ?_, ?_⟩
      · rw [show kept + (m + 1) = kept + 1 + m by omega, h1, h3]; omega
      · rw [List.nil_append, show kept + (m + 1) = kept + 1 + m by omega]

theorem keptEmpty_zero (o : FormatOptions) : keptEmpty o 0 = 0 := by
  unfold keptEmpty
  cases o.preserveNewLines
  · rfl
  · cases o.maxPreserveNewLines <;> simp

theorem layLines_kept (o : FormatOptions) (k a b : Nat) (l : List (List Str)) (h : l.head? ≠ some []) :
    layLines o k a l = layLines o k b l := by
  cases l with
  | nil => rfl
  | cons w l =>
    have hw : w ≠ [] := fun hw => h (by rw [hw]; rfl)
    rw [layLines, layLines, if_neg hw, if_neg hw]

theorem layLines_filled (o : FormatOptions) (k : Nat) (gs : List (List Str × Nat)) (h : ∀ g ∈ gs, g.1 ≠ []) :
    layLines o k 0 (gs.flatMap fun g => g.1 :: List.replicate g.2 []) = filled o k gs := by
  induction gs with
  | nil => rfl
  | cons g gs ih =>
    have hg : g.1 ≠ [] := h g (by simp)
    have ih := ih (fun x hx => h x (by simp [hx]))
    rw [List.flatMap_cons, List.cons_append, layLines, if_neg hg]
    obtain ⟨c, h1, h2⟩ := layLines_blank o k g.2 0 (gs.flatMap fun g => g.1 :: List.replicate g.2 [])
    rw [h2, layLines_kept o k (0 + g.2) 0, ih]
    · rw [keptEmpty_zero] at h1
      unfold filled
      rw [List.flatMap_cons]
      simp only [Nat.zero_add] at h1
      rw [h1]
      simp
    · cases gs with
      | nil => simp
      | cons g' gs =>
        have hg' : g'.1 ≠ [] := h g' (by simp)
        rw [List.flatMap_cons]
        simp [hg']

theorem paragraphs_exist (l : List (List Str)) : ∃ m gs, Paragraphs l m gs := by
  induction l with
  | nil => exact ⟨0, [], by simp, rfl⟩
  | cons w l ih =>
    obtain ⟨m, gs, h1, h2⟩ := ih
    by_cases hw : w = []
    · exact ⟨m + 1, gs, h1, by rw [hw, h2, List.replicate_succ]; rfl⟩
    · refine ⟨0, (w, m) :: gs, ?_, ?_⟩
      · intro g hg
        rcases List.mem_cons.1 hg with rfl | hg
        · exact hw
        · exact h1 g hg
      · rw [h2]; simp

theorem layLines_laid (o : FormatOptions) (k : Nat) (l : List (List Str)) :
    ∃ m gs, Paragraphs l m gs ∧ layLines o k 0 l = emptyLines o k (keptEmpty o m) ++ filled o k gs := by
  obtain ⟨m, gs, h1, h2⟩ := paragraphs_exist l
  refine ⟨m, gs, ⟨h1, h2⟩, ?_⟩
  obtain ⟨c, h3, h4⟩ := layLines_blank o k m 0 (gs.flatMap fun g => g.1 :: List.replicate g.2 [])
  rw [keptEmpty_zero] at h3
  simp only [Nat.zero_add] at h3
  rw [h2, h4, h3, layLines_kept o k (0 + m) 0, layLines_filled o k gs h1]
  · cases gs with
    | nil => simp
    | cons g gs =>
      have := h1 g (by simp)
      rw [List.flatMap_cons]
      simp [this]

/-! ### Texts -/

theorem tidy_spaced (s : Str) : tidy s = spaced (words s) := by rw [tidy_eq, spaced_eq]

theorem tidy_pos (s : Str) : (tidy s).length > 0 ↔ words s ≠ [] := by
  rw [Ne, ← tidy_nil_iff s]
  cases tidy s <;> simp

/-- The lines behind the first one, all of which count. -/
theorem beautifyLines_all (o : FormatOptions) (k count : Nat) (i kept : Nat) (ls : List Str) (hi : i ≠ 0) :
    beautifyLines o k count true i kept ls = layLines o k kept (ls.map words) := by
  induction ls generalizing i kept with
  | nil => rfl
  | cons l ls ih =>
    rw [beautifyLines, List.map_cons, layLines]
    by_cases hw : words l = []
    · rw [if_neg (by rw [tidy_pos]; simpa using hw), if_pos hw]
      by_cases hc : o.preserveNewLines = true ∧ o.maxPreserveNewLines.all (fun v => v > kept) = true
      · rw [if_pos ⟨hi, .inr rfl, hc⟩, if_pos hc, ih _ _ (by omega)]
        simp [emptyLines, indentation_eq]
      · rw [if_neg (fun h => hc h.2.2), if_pos hi, if_neg hc, ih _ _ (by omega)]
        rfl
    · rw [if_pos ((tidy_pos l).2 hw), if_neg hw, ih _ _ (by omega), tidy_spaced, indentation_eq]

/-- The lines behind the first one; the last one does not count if it is blank. -/
theorem beautifyLines_init (o : FormatOptions) (k count : Nat) (i kept : Nat) (ls : List Str) (z : Str) (hi : i ≠ 0)
    (hc : i + ls.length + 1 = count) :
    beautifyLines o k count false i kept (ls ++ [z]) =
      layLines o k kept (ls.map words ++ (if words z = [] then [] else [words z])) := by
  induction ls generalizing i kept with
  | nil =>
    simp only [List.length_nil] at hc
    rw [List.nil_append, beautifyLines]
    by_cases hw : words z = []
    · rw [if_neg (by rw [tidy_pos]; simpa using hw), if_pos hw, 
        if_neg (by rintro ⟨_, h | h, _⟩ <;> first | exact h (by omega) | cases h), if_pos hi]
      simp [layLines, beautifyLines]
    · rw [if_pos ((tidy_pos z).2 hw), if_neg hw, tidy_spaced]
      simp [layLines, hw, beautifyLines, indentation_eq]
  | cons l ls ih =>
    simp only [List.length_cons] at hc
    rw [List.cons_append, List.map_cons, List.cons_append, beautifyLines, layLines]
    by_cases hw : words l = []
    · rw [if_neg (by rw [tidy_pos]; simpa using hw), if_pos hw]
      by_cases hk : o.preserveNewLines = true ∧ o.maxPreserveNewLines.all (fun v => v > kept) = true
      · rw [if_pos ⟨hi, .inl (by omega), hk⟩, if_pos hk, ih _ _ (by omega) (by omega)]
        simp [emptyLines, indentation_eq]
      · rw [if_neg (fun h => hk h.2.2), if_pos hi, if_neg hk, ih _ _ (by omega) (by omega)]
        rfl
    · rw [if_pos ((tidy_pos l).2 hw), if_neg hw, ih _ _ (by omega) (by omega), tidy_spaced, indentation_eq]

theorem dropEnds_eq (f z : List Str) (mid : List (List Str)) : dropEnds (f :: (mid ++ [z])) =
    (if f = [] then [] else [f]) ++ (mid ++ (if z = [] then [] else [z])) := by
  unfold dropEnds
  cases f with
  | nil => cases z <;> simp [dropBlank]
  | cons a f => cases z <;> simp [dropBlank]

theorem beautifyText_lines (o : FormatOptions) (k : Nat) {text : Str} {ls : List Str} (hl : LinesOf text ls)
    (h : 10 ∈ text) : beautifyText o k text = layLines o k 0 (dropEnds (ls.map words)) := by
  obtain ⟨h1, h2, h3⟩ := hl
  -- the first and the last line
  obtain ⟨f, mid, z, rfl⟩ : ∃ f mid z, ls = f :: (mid ++ [z]) := by
    cases ls with
    | nil => exact absurd rfl h1
    | cons f r =>
      rcases List.eq_nil_or_concat r with rfl | ⟨mid, z, rfl⟩
      · rw [h3] at h
        exact absurd h (h2 f (by simp))
      · exact ⟨f, mid, z, by simp⟩
  have hz : 10 ∉ z := h2 z (by simp)
  have e1 := linesOf_unlines (f :: mid) z (fun l hm => h2 l (by simp only [List.mem_cons, List.mem_append] at hm ⊢; rcases hm with h | h <;> simp [h])) hz
  have e2 := unlines_last (f :: mid) z (by simp) hz
  rw [List.cons_append, ← h3] at e1 e2
  unfold beautifyText
  rw [if_pos h, e1, List.map_cons, List.map_append, List.map_cons, List.map_nil, dropEnds_eq]
  have first : ∀ (nl : Bool) (count : Nat) (rest : List Str) (R : List (List Str)),
      beautifyLines o k count nl 1 0 rest = layLines o k 0 R →
      beautifyLines o k count nl 0 0 (f :: rest) = layLines o k 0 ((if words f = [] then [] else [words f]) ++ R) := by
    intro nl count rest R hr
    rw [beautifyLines]
    by_cases hw : words f = []
    · rw [if_neg (by rw [tidy_pos]; simpa using hw), if_neg (by simp), if_neg (by simp), hr, if_pos hw]
      rfl
    · rw [if_pos ((tidy_pos f).2 hw), hr, if_neg hw, tidy_spaced]
      simp [layLines, hw, indentation_eq]
  by_cases hzn : z = []
  · subst hzn
    have : decide (text.getLast? = some 10) = true := by simpa using e2.2 rfl
    rw [this]
    simp only [if_true, List.append_nil]
    exact first _ _ _ _ (by
      rw [beautifyLines_all _ _ _ _ _ _ (by omega)]
      rw [show words [] = [] from rfl]; simp)
  · have : decide (text.getLast? = some 10) = false := by simpa using fun h => hzn (e2.1 h)
    rw [this, if_neg hzn]
    exact first _ _ _ _ (beautifyLines_init _ _ _ _ _ _ _ (by omega) (by simp; omega))

theorem beautifyText_textLaid (o : FormatOptions) (k : Nat) (text : Str) : TextLaid o k text (beautifyText o k text) := by
  refine ⟨fun h => ?_, fun h => ?_⟩
  · unfold beautifyText; rw [if_neg h, tidy_spaced]
  · obtain ⟨ls, hl⟩ := linesOf_exists text
    obtain ⟨m, gs, h4, h5⟩ := layLines_laid o k (dropEnds (ls.map words))
    exact ⟨_, m, gs, hl, h4, by rw [← h5, beautifyText_lines o k hl h]⟩

/-! ### Elements -/

theorem words_nil_iff (s : Str) : words s = [] ↔ ink s = [] := by
  constructor
  · intro h; rw [← words_ink, h]; rfl
  · intro h
    unfold ink at h
    rw [List.flatten_eq_nil_iff] at h
    refine wordsC_blank fun c hc => ?_
    cases hb : isBlankChar c with
    | true => rfl
    | false => exact absurd (h c (List.mem_filter.2 ⟨hc, by simp [hb]⟩)) (charsOf_ne_nil hc)

theorem words_beautifyText (o : FormatOptions) (k : Nat) (s : Str) : words (beautifyText o k s) = [] ↔ words s = [] := by
  rw [words_nil_iff, words_nil_iff, ink_beautifyText]

theorem trimC_pos (s : Str) : (trimC (charsOf s)).flatten.length > 0 ↔ words s ≠ [] := by
  unfold words
  rw [← wordsC_trim]
  by_cases h : trimC (charsOf s) = []
  · rw [h]; simp [wordsC]
  · have h1 := wordsC_ne_nil h (trimC_last _)
    refine ⟨fun _ => h1, fun _ => ?_⟩
    cases hc : trimC (charsOf s) with
    | nil => exact absurd hc h
    | cons c l =>
      have hm : c ∈ trimC (charsOf s) := by rw [hc]; exact List.mem_cons_self
      unfold trimC trimLeftC at hm
      have := (List.dropWhile_sublist _).subset (List.mem_reverse.1 hm)
      have := (List.dropWhile_sublist _).subset (List.mem_reverse.1 this)
      have := List.length_pos_iff.2 (charsOf_ne_nil this)
      rw [List.flatten_cons, List.length_append]
      omega

theorem textOnly_leaf {o : FormatOptions} {src : Str} {k : Nat} {n : Node} {tag : Str} {s e : Nat} {w : Bool} {t : Str}
    (hw : w = true ↔ Wraps o k n tag (bytesIn src s e)) (h : textOnly o src k w s e = .ok t) :
    LeafLaid o k n tag (bytesIn src s e) t := by
  unfold textOnly at h
  split at h
  · rename_i he
    cases h
    have : bytesIn src s e = [] := by unfold bytesIn; rw [he]; simp
    rw [this]
    refine ⟨[], ⟨fun _ => rfl, fun h => by simp at h⟩, ?_, fun _ => rfl⟩
    rintro ⟨_, h⟩
    exact absurd rfl h
  · obtain ⟨x, hx, h⟩ := bind_ok h
    have hx' : x = bytesIn src s e := (sliceStr_ok hx).2.2.2.2
    subst hx'
    cases h
    refine ⟨_, beautifyText_textLaid o (k + 1) _, ?_⟩
    have hi : (w = true ∧ (trimC (charsOf (beautifyText o (k + 1) (bytesIn src s e)))).flatten.length > 0) ↔
        (Wraps o k n tag (bytesIn src s e) ∧ words (bytesIn src s e) ≠ []) := by
      rw [trimC_pos, Ne, words_beautifyText, hw]
    refine ⟨fun h => ?_, fun h => ?_⟩
    · rw [if_pos (hi.2 h)]
      exact ⟨_, trimLeftStr_trimmed _, by rw [indentation_eq]⟩
    · rw [if_neg (fun g => h (hi.1 g))]

theorem endText_eq {o : FormatOptions} {k : Nat} {n : Node} {tag content : Str} {w : Bool}
    (hw : w = true ↔ Wraps o k n tag content) :
    (if attrsWrap o k n tag = true ∨ w = true then [10] ++ indentText o k else []) ++ b!"</" ++ tag ++ b!">" =
      endText o k n tag content := by
  unfold endText
  have hi : (attrsWrap o k n tag = true ∨ w = true) ↔ (WrapsTag o k n tag ∨ Wraps o k n tag content) := by
    rw [attrsWrap_iff, hw]
  rw [indentation_eq]
  by_cases h : WrapsTag o k n tag ∨ Wraps o k n tag content
  · rw [if_pos h, if_pos (hi.2 h)]
  · rw [if_neg h, if_neg (fun g => h (hi.1 g))]

mutual
theorem Node.beautify_nodeLaid {o : FormatOptions} {src : Str} {k : Nat} {n : Node} {t : Str}
    (h : n.beautify o src k = .ok t) : NodeLaid o src k n t := by
  match n, h with
  | ⟨tag, start, stop, children, closed, ste, ets, attrs⟩, h =>
    unfold Node.beautify at h
    cases tag with
    | none => cases h
    | some tag =>
      simp only [unwrap, bind, Except.bind] at h
      unfold NodeLaid
      dsimp only at h ⊢
      refine ⟨tag, rfl, ?_⟩
      cases ets with
      | none =>
        dsimp only at h ⊢
        cases h
        exact startText_self _ _ _ _ rfl
      | some e =>
        cases ste with
        | none => cases h
        | some s =>
          dsimp only at h ⊢
          obtain ⟨kids, hk, h⟩ := bind_ok h
          obtain ⟨wrap, hw, h⟩ := bind_ok h
          obtain ⟨text, ht, h⟩ := bind_ok h
          cases h
          have hwi := nodeWrap_iff hw
          refine ⟨s, kids ++ text, rfl, ?_, ?_, ?_⟩
          · rw [← startText_open _ _ _ _ (by simp), ← endText_eq hwi]
            simp only [List.append_assoc]
          · rintro rfl
            simp only [Node.beautifyKids, Except.ok.injEq] at hk
            subst hk
            simp only [leafText, List.isEmpty_nil, if_true] at ht
            exact textOnly_leaf hwi ht
          · intro hc
            have : children.isEmpty = false := by cases children <;> simp_all
            simp only [leafText, this] at ht
            cases ht
            rw [List.append_nil]
            exact Node.beautifyKids_kidsLaid hc hk
theorem Node.beautifyKids_kidsLaid {o : FormatOptions} {src : Str} {k prev stop : Nat} {l : List Node} {t : Str}
    (hl : l ≠ []) (h : Node.beautifyKids o src k prev stop l = .ok t) : KidsLaid o src k prev stop l t := by
  match l, h with
  | [], _ => exact absurd rfl hl
  | [c], h =>
    unfold Node.beautifyKids at h
    obtain ⟨a, h1, h⟩ := bind_ok h
    obtain ⟨x, h2, h⟩ := bind_ok h
    obtain ⟨b, h3, h⟩ := bind_ok h
    cases h
    have e1 := (sliceStr_ok h1).2.2.2.2
    have e3 := (sliceStr_ok h3).2.2.2.2
    subst e1 e3
    unfold KidsLaid
    refine ⟨_, x, _, rfl, beautifyText_textLaid o k _, Node.beautify_nodeLaid h2, ?_⟩
    unfold KidsLaid
    exact beautifyText_textLaid o k _
  | c :: d :: l, h =>
    unfold Node.beautifyKids at h
    obtain ⟨a, h1, h⟩ := bind_ok h
    obtain ⟨x, h2, h⟩ := bind_ok h
    obtain ⟨b, h3, h⟩ := bind_ok h
    cases h
    have e1 := (sliceStr_ok h1).2.2.2.2
    subst e1
    unfold KidsLaid
    exact ⟨_, x, _, rfl, beautifyText_textLaid o k _, Node.beautify_nodeLaid h2,
      Node.beautifyKids_kidsLaid (by simp) h3⟩
end

theorem beautifyRoots_rootsLaid {o : FormatOptions} {src : Str} {l : List Node} {t : Str}
    (h : beautifyRoots o src l = .ok t) : RootsLaid o src l t := by
  induction l generalizing t with
  | nil => cases h; rfl
  | cons n l ih =>
    unfold beautifyRoots at h
    obtain ⟨x, h1, h⟩ := bind_ok h
    obtain ⟨r, h2, h⟩ := bind_ok h
    cases h
    exact ⟨x, r, rfl, Node.beautify_nodeLaid h1, ih h2⟩

end Html
