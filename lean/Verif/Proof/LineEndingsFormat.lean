import Verif.Proof.LineEndingsServices
import Verif.Proof.FormatRange
import Verif.Proof.Encoded

/-! # Formatting with other line endings -/

namespace Html
open Spec

/-- The characters a character becomes. -/
def crC (c : Str) : List Str := if c = [10] then [[13], [10]] else [c]

theorem crC_take (l : List Str) : (l.flatMap crC).takeWhile isStray = l.takeWhile isStray := by
  induction l with
  | nil => rfl
  | cons c l ih =>
    rw [List.flatMap_cons]
    by_cases h : c = [10]
    · subst h; rfl
    · rw [show crC c = [c] by simp [crC, h], List.singleton_append, List.takeWhile_cons, List.takeWhile_cons, ih]

theorem crC_drop {p : Str → Bool} (hp : p [13] = p [10]) (l : List Str) :
    (l.flatMap crC).dropWhile p = (l.dropWhile p).flatMap crC := by
  induction l with
  | nil => rfl
  | cons c l ih =>
    rw [List.flatMap_cons]
    by_cases h : c = [10]
    · subst h
      show ([13] :: [10] :: l.flatMap crC).dropWhile p = _
      rw [List.dropWhile_cons, List.dropWhile_cons, List.dropWhile_cons, ih, hp]
      split <;> rfl
    · rw [show crC c = [c] by simp [crC, h], List.singleton_append, List.dropWhile_cons, List.dropWhile_cons, ih]
      split
      · rfl
      · rw [List.flatMap_cons, show crC c = [c] by simp [crC, h]]; rfl

theorem charsOf_crlf (s : Str) : charsOf (crlf s) = (charsOf s).flatMap crC := by
  induction s with
  | nil => rfl
  | cons b t ih =>
    by_cases hb : b = 10
    · subst hb
      show charsOf (13 :: 10 :: crlf t) = _
      simp only [charsOf]
      rw [ih]
      rfl
    · have e : crlf (b :: t) = b :: crlf t := by simp [crlf, hb]
      rw [e]
      simp only [charsOf]
      by_cases h : 192 ≤ b
      · rw [if_pos h, if_pos h, ih, crC_take, crC_drop rfl, List.flatMap_cons]
        have : crC (b :: ((charsOf t).takeWhile isStray).flatten) = [b :: ((charsOf t).takeWhile isStray).flatten] := by
          unfold crC
          rw [if_neg]
          intro h0
          simp only [List.cons.injEq] at h0
          omega
        rw [this]
        rfl
      · rw [if_neg h, if_neg h, ih, List.flatMap_cons, show crC [b] = [[b]] by simp [crC, hb]]
        rfl

theorem trimLeft_crlf (s : Str) : trimLeftStr (crlf s) = crlf (trimLeftStr s) := by
  unfold trimLeftStr trimLeftC
  rw [charsOf_crlf, crC_drop (by decide)]
  have hg := (charsOf_groups s).drop isBlankChar
  rw [← charsOf_groups_flatten hg, ← charsOf_crlf, charsOf_flatten, charsOf_flatten]

theorem trimC_blank {l : List Str} {c : Str} (h : isBlankChar c = true) : trimC (l ++ [c]) = trimC l := by
  unfold trimC trimLeftC
  have key : ∀ l : List Str, ((l ++ [c]).dropWhile isBlankChar).reverse.dropWhile isBlankChar =
      (l.dropWhile isBlankChar).reverse.dropWhile isBlankChar := by
    intro l
    induction l with
    | nil => simp [h]
    | cons x l ih =>
      rw [List.cons_append, List.dropWhile_cons, List.dropWhile_cons]
      by_cases hx : isBlankChar x = true
      · rw [if_pos hx, if_pos hx, ih]
      · rw [if_neg hx, if_neg hx, ← List.cons_append, List.reverse_append]
        simp [h]
  rw [key]

theorem tidy_cr (l : Str) : tidy (l ++ [13]) = tidy l := by
  unfold tidy
  rw [charsOf_append (fun b hb => by cases hb; rfl)]
  show (collapseC (trimC (charsOf l ++ [[13]]))).flatten = _
  rw [trimC_blank (by decide)]

/-- The same lines, some with a `\r` at the end. -/
def CrLines : List Str → List Str → Prop
  | [], [] => True
  | x :: xs, y :: ys => (y = x ∨ y = x ++ [13]) ∧ CrLines xs ys
  | _, _ => False

theorem CrLines.length : ∀ {a b : List Str}, CrLines a b → b.length = a.length
  | [], [], _ => rfl
  | _ :: _, _ :: _, h => by simp [CrLines.length h.2]
  | [], _ :: _, h => h.elim
  | _ :: _, [], h => h.elim

theorem crLines (t : Str) : CrLines (linesOf t) (linesOf (crlf t)) := by
  induction t with
  | nil => trivial
  | cons b t ih =>
    by_cases hb : b = 10
    · subst hb
      show CrLines ([] :: linesOf t) (linesOf (13 :: 10 :: crlf t))
      exact ⟨.inr rfl, ih⟩
    · have e : crlf (b :: t) = b :: crlf t := by simp [crlf, hb]
      rw [e]
      simp only [linesOf]
      rw [if_neg hb, if_neg hb]
      revert ih
      cases linesOf t with
      | nil => cases linesOf (crlf t) with
        | nil => intro _; exact ⟨.inl rfl, trivial⟩
        | cons y ys => exact False.elim
      | cons x xs => cases linesOf (crlf t) with
        | nil => exact False.elim
        | cons y ys =>
          rintro ⟨h1, h2⟩
          refine ⟨?_, h2⟩
          rcases h1 with rfl | rfl
          · exact .inl rfl
          · exact .inr rfl

theorem beautifyLines_cr {o : FormatOptions} {k c : Nat} {nl : Bool} : ∀ {a b : List Str} {i q : Nat}, CrLines a b →
    beautifyLines o k c nl i q b = beautifyLines o k c nl i q a
  | [], [], _, _, _ => rfl
  | [], _ :: _, _, _, h => h.elim
  | _ :: _, [], _, _, h => h.elim
  | x :: xs, y :: ys, i, q, h => by
    have ht : tidy y = tidy x := by
      rcases h.1 with rfl | rfl
      · rfl
      · exact tidy_cr x
    unfold beautifyLines
    rw [ht, beautifyLines_cr h.2, beautifyLines_cr h.2, beautifyLines_cr h.2]

theorem mem_crlf (t : Str) : 10 ∈ crlf t ↔ 10 ∈ t := by
  induction t with
  | nil => simp [crlf]
  | cons b t ih =>
    unfold crlf
    split
    · rename_i h; simp [h]
    · simp [ih]

theorem beautifyText_crlf (o : FormatOptions) (k : Nat) (t : Str) : beautifyText o k (crlf t) = beautifyText o k t := by
  unfold beautifyText
  by_cases h : 10 ∈ t
  · have hl : (crlf t).getLast? = t.getLast? := by
      obtain ⟨i, j, rfl⟩ := List.append_of_mem h
      rcases List.eq_nil_or_concat (i ++ 10 :: j) with h0 | ⟨l, b, h0⟩
      · simp at h0
      · rw [h0, List.concat_eq_append, crlf_append, List.getLast?_append, List.getLast?_append]
        show ((if b = 10 then [13, 10] else [b]).getLast?).or _ = _
        split
        · rename_i hb; subst hb; rfl
        · rfl
    rw [if_pos h, if_pos ((mem_crlf t).2 h), hl, (crLines t).length, beautifyLines_cr (crLines t)]
  · rw [if_neg h, if_neg (fun hx => h ((mem_crlf t).1 hx)), crlf_none h]

/-- No line ends in the values of these attributes. -/
def OnLines (m : List (Str × Attr)) : Prop := ∀ x ∈ m, ∀ v, x.2.value = some v → 10 ∉ v

/-- An attribute at its place in the other text. -/
def mvA (a : Str) (x : Str × Attr) : Str × Attr := (x.1, ⟨x.2.value, crOff a x.2.offset⟩)

theorem crAttrs_lines {a : Str} {m : List (Str × Attr)} (h : OnLines m) : crAttrs a m = m.map (mvA a) := by
  unfold crAttrs
  apply List.map_congr_left
  intro x hx
  obtain ⟨k, v, o⟩ := x
  simp only [mvA, Prod.mk.injEq, Attr.mk.injEq, true_and, and_true]
  cases v with
  | none => rfl
  | some v => simp only [Option.map_some, crlf_none (h _ hx v rfl)]

theorem insertAttr_cr (a : Str) (x : Str × Attr) (l : List (Str × Attr)) :
    insertAttr (mvA a x) (l.map (mvA a)) = (insertAttr x l).map (mvA a) := by
  induction l with
  | nil => rfl
  | cons y l ih =>
    rw [List.map_cons]
    unfold insertAttr
    simp only [mvA, crOff_le]
    split
    · rfl
    · rw [List.map_cons, ← ih]; rfl

theorem order_cr (a : Str) (m : List (Str × Attr)) : (m.map (mvA a)).foldr insertAttr [] = (m.foldr insertAttr []).map (mvA a) := by
  induction m with
  | nil => rfl
  | cons x m ih => rw [List.map_cons, List.foldr_cons, List.foldr_cons, ih, insertAttr_cr]

section
variable {o : FormatOptions} {a : Str}

theorem leftTagLen_cr {n : Node} {k : Nat} {tag : Str} (h : OnLines n.attributes) :
    leftTagLen o k (crNode a n) tag = leftTagLen o k n tag := by
  unfold leftTagLen
  rw [crNode_eq]
  unfold Node.isSelfClosing
  dsimp only
  rw [crAttrs_lines h, List.map_map]
  cases n.endTagStart <;> rfl

theorem attrsWrap_cr {n : Node} {k : Nat} {tag : Str} (h : OnLines n.attributes) :
    attrsWrap o k (crNode a n) tag = attrsWrap o k n tag := by
  unfold attrsWrap
  rw [leftTagLen_cr h]

theorem openText_cr {n : Node} {k : Nat} {tag : Str} (h : OnLines n.attributes) :
    openText o k (crNode a n) tag = openText o k n tag := by
  unfold openText attrsText
  rw [attrsWrap_cr h]
  have e : (crNode a n).attributesByOrder = n.attributesByOrder.map (mvA a) := by
    unfold Node.attributesByOrder
    rw [crNode_eq]
    dsimp only
    rw [crAttrs_lines h, order_cr]
  rw [e, List.flatMap_map]
  rfl

theorem nodeWrap_cr {n : Node} {k s e : Nat} {tag : Str} (h : OnLines n.attributes) :
    nodeWrap o (crlf a) k (crNode a n) tag (crOff a s) (crOff a e) = nodeWrap o a k n tag s e := by
  unfold nodeWrap
  rw [crlf_slice]
  cases hs : sliceStr a s e with
  | error x => rfl
  | ok t =>
    simp only [Except.map, bind, Except.bind, mem_crlf]
    by_cases ht : 10 ∈ t
    · rw [if_pos ht, if_pos ht]
    · rw [if_neg ht, if_neg ht]
      obtain ⟨h1, _, _, _, rfl⟩ := sliceStr_ok hs
      have hlen : crOff a s + (e - s) = crOff a e := by
        have := crOff_same (a := a) (o := s) (k := e - s) (n := e - s) (by rw [show s + (e - s) = e by omega]; exact ht) (Nat.le_refl _)
        rw [this, show s + (e - s) = e by omega]
      rw [leftTagLen_cr h, show subU (crOff a e) (crOff a s) = .ok (crOff a e - crOff a s) from if_pos (by omega),
        show subU e s = .ok (e - s) from if_pos h1, show crOff a e - crOff a s = e - s by omega]

theorem leafText_cr {k s e : Nat} {w : Bool} {l : List Node} :
    leafText o (crlf a) k w (crOff a s) (crOff a e) (crNodes a l) = leafText o a k w s e l := by
  unfold leafText
  rw [crNodes_map, List.isEmpty_map]
  split
  · unfold textOnly
    simp only [crOff_inj]
    split
    · rfl
    · rw [crlf_slice]
      cases sliceStr a s e with
      | error x => rfl
      | ok t =>
        simp only [Except.map, bind, Except.bind, beautifyText_crlf]
  · rfl

theorem forest_mono {l l' : List Node} {m : Node} (hm : InForest l m) (h : ∀ x ∈ l, x ∈ l') : InForest l' m := by
  induction hm with
  | root hr => exact .root (h _ hr)
  | child _ hc ih => exact .child ih hc

mutual
theorem beautify_cr : ∀ (n : Node) (k : Nat), (∀ m, InForest [n] m → OnLines m.attributes) →
    Node.beautify o (crlf a) k (crNode a n) = Node.beautify o a k n
  | ⟨tag, start, stop, children, closed, ste, ets, attrs⟩, k, h => by
    have h0 : OnLines attrs := h _ (.root (List.mem_singleton.2 rfl))
    have hk := fun s e => beautifyKids_cr children (k + 1) s e
      (fun m hm => h m (inForest_up (List.mem_singleton.2 rfl) hm))
    have e1 := fun t => openText_cr (o := o) (a := a) (n := ⟨tag, start, stop, children, closed, ste, ets, attrs⟩) (k := k) (tag := t) h0
    have e2 := fun t => attrsWrap_cr (o := o) (a := a) (n := ⟨tag, start, stop, children, closed, ste, ets, attrs⟩) (k := k) (tag := t) h0
    have e3 := fun t s e => nodeWrap_cr (o := o) (a := a) (n := ⟨tag, start, stop, children, closed, ste, ets, attrs⟩) (k := k) (s := s) (e := e) (tag := t) h0
    simp only [crNode] at e1 e2 e3
    simp only [crNode, Node.beautify, e1, e2]
    cases tag with
    | none => rfl
    | some tag =>
      simp only [unwrap, bind, Except.bind]
      cases ets with
      | none => rfl
      | some e =>
        cases ste with
        | none => rfl
        | some s =>
          simp only [Option.map_some] at e3 ⊢
          simp only [hk, e3, leafText_cr]
theorem beautifyKids_cr : ∀ (l : List Node) (k s e : Nat), (∀ m, InForest l m → OnLines m.attributes) →
    Node.beautifyKids o (crlf a) k (crOff a s) (crOff a e) (crNodes a l) = Node.beautifyKids o a k s e l
  | [], _, _, _, _ => by simp only [crNodes, Node.beautifyKids]
  | [c], k, s, e, h => by
    have e1 : (crNode a c).start = crOff a c.start := by rw [crNode_eq]
    have e2 : (crNode a c).stop = crOff a c.stop := by rw [crNode_eq]
    simp only [crNodes, Node.beautifyKids, e1, e2, crlf_slice, beautify_cr c k h]
    cases sliceStr a s c.start with
    | error x => rfl
    | ok t =>
      simp only [Except.map, bind, Except.bind, beautifyText_crlf]
      cases Node.beautify o a k c with
      | error x => rfl
      | ok y =>
        simp only
        cases sliceStr a c.stop e with
        | error x => rfl
        | ok z => simp only [beautifyText_crlf]
  | c :: d :: l, k, s, e, h => by
    have e1 : (crNode a c).start = crOff a c.start := by rw [crNode_eq]
    have e2 : (crNode a c).stop = crOff a c.stop := by rw [crNode_eq]
    have ih := beautifyKids_cr (d :: l) k c.stop e (fun m hm => h m (forest_mono hm (fun x hx => List.mem_cons_of_mem _ hx)))
    have ic := beautify_cr c k (fun m hm => h m (forest_mono hm (fun x hx => by cases List.mem_singleton.1 hx; simp)))
    simp only [crNodes] at ih
    simp only [crNodes, Node.beautifyKids, e1, e2, crlf_slice, ic, ih]
    cases sliceStr a s c.start with
    | error x => rfl
    | ok t => simp only [Except.map, bind, Except.bind, beautifyText_crlf]
end

theorem beautifyRoots_cr : ∀ (l : List Node), (∀ m, InForest l m → OnLines m.attributes) →
    beautifyRoots o (crlf a) (crNodes a l) = beautifyRoots o a l
  | [], _ => rfl
  | n :: l, h => by
    have ih := beautifyRoots_cr l (fun m hm => h m (forest_mono hm (fun x hx => List.mem_cons_of_mem _ hx)))
    have ic := beautify_cr (o := o) (a := a) n 0 (fun m hm => h m (forest_mono hm (fun x hx => by cases List.mem_singleton.1 hx; simp)))
    simp only [crNodes, beautifyRoots, ic, ih]

theorem htmlBeautify_cr {u : Uni} {cs : Bool} {void : List Str} {cps : List Nat} (hu : Utf8 cps a)
    (h : ∀ roots, parse u cs void a = .ok roots → ValuesOnLines roots) :
    htmlBeautify u cs void o (crlf a) = htmlBeautify u cs void o a := by
  unfold htmlBeautify
  rw [ln_parse u cs void hu]
  cases hp : parse u cs void a with
  | error e => rfl
  | ok roots =>
    simp only [Except.map, bind, Except.bind]
    rw [beautifyRoots_cr roots (h roots hp)]

theorem format_cr {u : Uni} {cs : Bool} {void : List Str} {cps : List Nat} {d d' : TextDoc} (hd : OtherEnds d d')
    (hu : Utf8 cps d.text) (h : ∀ t roots, Trimmed d.text t → parse u cs void t = .ok roots → ValuesOnLines roots) :
    format u cs void o d' none = format u cs void o d none := by
  unfold format
  dsimp only
  obtain ⟨cps', hu'⟩ := Enc.trimLeft ⟨cps, hu⟩
  rw [hd.text, trimLeft_crlf, htmlBeautify_cr hu' (fun roots => h _ roots (trimLeftStr_trimmed _)), ← crOff_length, hd.pos]

end

end Html
