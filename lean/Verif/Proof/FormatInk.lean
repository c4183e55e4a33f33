import Verif.Proof.FormatTotal
import Verif.Proof.Selection

/-! # The characters that formatting keeps -/

namespace Html
open Spec

theorem ink_nil : ink [] = [] := rfl

theorem ink_append {x y : Str} (h : HeadOk y) : ink (x ++ y) = ink x ++ ink y := by
  unfold ink
  rw [charsOf_append h, List.filter_append, List.flatten_append]

theorem ink_ascii {w : Str} (h : ∀ b ∈ w, b < 192) (y : Str) : ink (w ++ y) = ink w ++ ink y := by
  unfold ink
  have := charsOf_ascii h []
  rw [List.append_nil] at this
  rw [charsOf_ascii h, this]
  simp [charsOf]

/-- Characters end behind an ASCII byte. -/
theorem ink_behind {x : Str} {b : Nat} (hb : b < 128) (y : Str) :
    ink (x ++ b :: y) = ink (x ++ [b]) ++ ink y := by
  rw [ink_append (headOk_of_lt hb), ink_append (headOk_of_lt hb)]
  have := ink_ascii (w := [b]) (by simp; omega) y
  rw [List.singleton_append] at this
  rw [this, List.append_assoc]

theorem ink_layout {w : Str} (h : Layout w) : ink w = [] := by
  unfold ink
  have := charsOf_ascii h.lt []
  rw [List.append_nil] at this
  rw [this, List.flatten_eq_nil_iff]
  intro l hl
  rw [List.mem_filter] at hl
  simp only [charsOf, List.append_nil] at hl
  rw [h.blank _ hl.1] at hl
  simp at hl

theorem ink_left {w : Str} (h : Layout w) (y : Str) : ink (w ++ y) = ink y := by
  rw [ink_ascii h.lt, ink_layout h, List.nil_append]

theorem Spec.Layout.headOk {w : Str} (h : Layout w) : HeadOk w := by
  cases w with
  | nil => exact headOk_nil
  | cons b w => exact headOk_of_lt (by rcases h b List.mem_cons_self with h | h | h <;> omega)

theorem Spec.Layout.headOk' {w : Str} (h : Layout w) (hw : w ≠ []) (y : Str) : HeadOk (w ++ y) := by
  cases w with
  | nil => exact absurd rfl hw
  | cons b w => exact headOk_of_lt (by rcases h b List.mem_cons_self with h | h | h <;> omega)

theorem ink_right {w : Str} (h : Layout w) (x : Str) : ink (x ++ w) = ink x := by
  rw [ink_append h.headOk, ink_layout h, List.append_nil]

theorem space_lt {w : Str} (h : Spaces w) : ∀ b ∈ w, b < 128 := by
  intro b hb
  have := h b hb
  unfold Space at this
  omega

theorem ink_spaces {w : Str} (h : Spaces w) : ink w = [] := by
  unfold ink
  have := charsOf_ascii (w := w) (fun b hb => by have := space_lt h b hb; omega) []
  rw [List.append_nil] at this
  rw [this, List.flatten_eq_nil_iff]
  intro l hl
  rw [List.mem_filter] at hl
  simp only [charsOf, List.append_nil, List.mem_map] at hl
  obtain ⟨⟨b, hb, rfl⟩, h2⟩ := hl
  have := h b hb
  unfold Space at this
  rcases this with rfl | rfl | rfl | rfl | rfl <;> simp [isBlankChar, codePoint, isSpaceCP] at h2

theorem ink_spaces_left {w : Str} (h : Spaces w) (y : Str) : ink (w ++ y) = ink y := by
  rw [ink_ascii (fun b hb => by have := space_lt h b hb; omega), ink_spaces h, List.nil_append]

theorem headOk_spaces {w : Str} (h : Spaces w) {y : Str} (hy : HeadOk y) : HeadOk (w ++ y) := by
  cases w with
  | nil => exact hy
  | cons b w => exact headOk_of_lt (space_lt h b List.mem_cons_self)

theorem ink_words {ws : List Str} {s : Str} (h : Laid Layout (ws.map (⟨true, ·⟩)) s) :
    ink s = ws.flatMap ink := by
  induction ws generalizing s with
  | nil => exact ink_layout h
  | cons w ws ih =>
    obtain ⟨w0, r, rfl, h1, h2, h3⟩ := h
    rw [List.append_assoc, ink_left h1, ink_append h3.headOk, ih h3]
    rfl

theorem ink_phrase {ws : List Str} {s : Str} (h : Laid Layout (phrase ws) s) : ink s = ws.flatMap ink := by
  cases ws with
  | nil => exact ink_layout h
  | cons w ws =>
    obtain ⟨w0, r, rfl, h1, h2, h3⟩ := h
    rw [List.append_assoc, ink_left h1, ink_append h3.headOk, ink_words h3]
    rfl

theorem wordsC_ink {l : List Str} (h : Groups l) :
    (wordsC l).flatMap ink = (l.filter (fun c => !isBlankChar c)).flatten := by
  induction l with
  | nil => rfl
  | cons c l ih =>
    have ih := ih h.2
    cases hc : isBlankChar c with
    | true =>
      have e : wordsC (c :: l) = wordsC l := by
        have : wordsC (c :: l) = if isBlankChar c then wordsC l else _ := rfl
        rw [this, hc]; rfl
      rw [e, ih, List.filter_cons]
      simp [hc]
    | false =>
      have key : ∀ y, (y = [] ∨ ∃ d y', l.head? = some d ∧ y = d ++ y') → ink (c ++ y) = c ++ ink y := by
        intro y hy
        unfold ink
        rw [charsOf_cons, List.filter_cons, hc]
        · simp
        · rcases h.1 with hb | ⟨b, cs, h1, h2, h3, h4⟩
          · exact .inl hb
          · refine .inr ⟨b, cs, h1, h2, h3, ?_⟩
            rcases hy with rfl | ⟨d, y', hd, rfl⟩
            · exact headOk_nil
            · exact h.2.headOk h4 hd
      have kc := key [] (.inl rfl)
      rw [List.append_nil, ink_nil, List.append_nil] at kc
      rw [List.filter_cons]
      simp only [hc, Bool.not_false, if_true, List.flatten_cons]
      rw [← ih]
      cases l with
      | nil => simp [wordsC, hc, kc]
      | cons d l =>
        cases hd : isBlankChar d with
        | true =>
          have e : wordsC (c :: d :: l) = c :: wordsC (d :: l) := by
            have : wordsC (c :: d :: l) = if isBlankChar c then wordsC (d :: l)
              else if !isBlankChar d then _ else c :: wordsC (d :: l) := rfl
            rw [this, hc, hd]; rfl
          rw [e, List.flatMap_cons, kc]
        | false =>
          obtain ⟨y, ws, hws⟩ := wordsC_ne (l := l) hd
          have e : wordsC (c :: d :: l) = (c ++ (d ++ y)) :: ws := by
            have : wordsC (c :: d :: l) = if isBlankChar c then wordsC (d :: l)
              else if !isBlankChar d then
                (match wordsC (d :: l) with
                | w :: ws => (c ++ w) :: ws
                | [] => [c]) else c :: wordsC (d :: l) := rfl
            rw [this, hc, hd, hws]; rfl
          rw [e, hws, List.flatMap_cons, List.flatMap_cons, key _ (.inr ⟨d, y, rfl, rfl⟩), List.append_assoc]

theorem words_ink (t : Str) : (words t).flatMap ink = ink t := wordsC_ink (charsOf_groups t)

theorem ink_wordPieces {t s : Str} (h : Laid Layout (wordPieces t) s) : ink s = ink t :=
  (ink_phrase h).trans (words_ink t)

theorem ink_beautifyText (o : FormatOptions) (level : Nat) (t : Str) : ink (beautifyText o level t) = ink t :=
  ink_wordPieces (beautifyText_laid o level t)

/-! ### Attributes -/

theorem ink_seps {α : Type} {sep : Str} (hs : Layout sep) (hn : sep ≠ []) (f : α → Str) (l : List α) :
    HeadOk (l.flatMap (fun x => sep ++ f x)) ∧
    ink (l.flatMap (fun x => sep ++ f x)) = l.flatMap (fun x => ink (f x)) := by
  induction l with
  | nil => exact ⟨headOk_nil, rfl⟩
  | cons a l ih =>
    simp only [List.flatMap_cons]
    refine ⟨by rw [List.append_assoc]; exact hs.headOk' hn _, ?_⟩
    rw [List.append_assoc, ink_left hs, ink_append ih.1, ih.2]

/-- Attributes in the order of their offsets stay in this order. -/
theorem insertAttr_sorted {x : Str × Attr} {l : List (Str × Attr)}
    (h : ∀ y ∈ l, x.2.offset ≤ y.2.offset) : insertAttr x l = x :: l := by
  cases l with
  | nil => rfl
  | cons y l => unfold insertAttr; rw [if_pos (h y List.mem_cons_self)]

theorem attrNodes_offset {i : Nat} {attrs : List AttrText} : ∀ y ∈ attrNodes i attrs, i ≤ y.2.offset := by
  induction attrs generalizing i with
  | nil => simp [attrNodes]
  | cons a l ih =>
    intro y hy
    simp only [attrNodes, List.mem_cons] at hy
    rcases hy with rfl | hy
    · simp
    · have := ih y hy; omega

theorem attrNodes_order (i : Nat) (attrs : List AttrText) :
    (attrNodes i attrs).foldr insertAttr [] = attrNodes i attrs := by
  induction attrs generalizing i with
  | nil => rfl
  | cons a l ih =>
    rw [attrNodes, List.foldr_cons, ih]
    refine insertAttr_sorted (fun y hy => ?_)
    have := attrNodes_offset y hy
    have h : a.gap.length ≤ a.print.length := by
      unfold AttrText.print
      rw [List.append_assoc, List.length_append]
      omega
    show i + a.gap.length ≤ _
    omega

theorem ink_printAttrs (i : Nat) {attrs : List AttrText} (h : ∀ a ∈ attrs, a.Legal) :
    HeadOk (printAttrs attrs) ∧
    ink (printAttrs attrs) = (attrNodes i attrs).flatMap (fun x => ink (attrText x)) := by
  induction attrs generalizing i with
  | nil => exact ⟨headOk_nil, rfl⟩
  | cons a l ih =>
    obtain ⟨h1, h2⟩ := ih (i + a.print.length) (fun b hb => h b (List.mem_cons_of_mem _ hb))
    obtain ⟨h3, h4, -⟩ := h a List.mem_cons_self
    have e : a.print = a.gap ++ attrText (a.name, ⟨a.value, i + a.gap.length⟩) := by
      unfold AttrText.print attrText
      cases a.value <;> simp
    rw [printAttrs]
    refine ⟨?_, ?_⟩
    · rw [e]
      cases hg : a.gap with
      | nil => exact absurd hg h3
      | cons b g => exact headOk_of_lt (space_lt h4 b (by simp [hg]))
    · have e2 : ink a.print = ink (attrText (a.name, ⟨a.value, i + a.gap.length⟩)) := by rw [e, ink_spaces_left h4]
      rw [ink_append h1, h2, e2]
      rfl

theorem layout_space : Layout b!" " := by intro c hc; simp at hc; simp [hc]

theorem attrSep_layout (o : FormatOptions) (level : Nat) (b : Bool) :
    Layout (if b then [10] ++ attrIndent o level else [32]) ∧ (if b then [10] ++ attrIndent o level else [32]) ≠ [] := by
  cases b
  · exact ⟨layout_space, by simp⟩
  · exact ⟨Layout.newline.append (Layout.attrIndent o level), by simp⟩

theorem ink_openText (o : FormatOptions) (level i : Nat) (n : Node) (tag : TagText) (hl : tag.Legal)
    (h : n.attributes = tag.nodes i) :
    ink (openText o level n tag.name) = ink tag.print := by
  have k3 := ink_printAttrs (i + 1 + tag.name.length) hl.1.1
  have k4 : HeadOk tag.gap := by
    have := headOk_spaces hl.2 headOk_nil
    rwa [List.append_nil] at this
  unfold openText attrsText TagText.print Node.attributesByOrder
  rw [h, TagText.nodes, attrNodes_order]
  obtain ⟨h1, h2⟩ := attrSep_layout o level (attrsWrap o level n tag.name)
  have k1 := ink_seps h1 h2 attrText (attrNodes (i + 1 + tag.name.length) tag.attrs)
  rw [List.append_assoc, List.append_assoc, ink_left (Layout.indent o level), ← List.append_assoc,
    ink_append k1.1, k1.2, ink_append k4, ink_append k3.1, k3.2, ink_spaces hl.2, List.append_nil]

/-! ### Elements -/

theorem ink_textOnly {o : FormatOptions} {src : Str} {level s e : Nat} {wrap : Bool} {t : Str}
    (h : textOnly o src level wrap s e = .ok t) : ink t = ink (bytesIn src s e) :=
  ink_wordPieces (textOnly_laid h)

theorem optLayout (o : FormatOptions) (level : Nat) (p : Prop) [Decidable p] :
    Layout (if p then [10] ++ indentText o level else []) := by
  split
  · exact Layout.newline.append (Layout.indent o level)
  · exact Layout.nil

/-- The text of an element starts with `<` and ends with `>`. -/
theorem element_edges {it : Item} (h : it.isElement = true) :
    ∃ x y, it.print = 60 :: x ∧ it.print = y ++ [62] := by
  cases it with
  | text t => cases h
  | comment b => cases h
  | doctype w b => cases h
  | elem tag kids gap =>
    refine ⟨tag.name ++ printAttrs tag.attrs ++ tag.gap ++ b!">" ++ printAll kids ++ (b!"</" ++ tag.name ++ gap ++ b!">"),
      tag.print ++ b!">" ++ printAll kids ++ (b!"</" ++ tag.name ++ gap), ?_, ?_⟩ <;>
    simp [Item.print, TagText.print]
  | void tag =>
    exact ⟨tag.name ++ printAttrs tag.attrs ++ tag.gap ++ b!">", tag.print, by simp [Item.print, TagText.print], by simp [Item.print]⟩
  | selfClosed tag =>
    exact ⟨tag.name ++ printAttrs tag.attrs ++ tag.gap ++ b!"/>", tag.print ++ b!"/", by simp [Item.print, TagText.print],
      by simp [Item.print]⟩

theorem closeVoid_element {it : Item} : it.closeVoid.isElement = it.isElement := by
  cases it <;> simp [Item.closeVoid, Item.isElement]

theorem ink_element {it : Item} (h : it.isElement = true) (x y : Str) :
    ink (x ++ it.print ++ y) = ink x ++ ink it.print ++ ink y := by
  obtain ⟨a, b, h1, h2⟩ := element_edges h
  have e : x ++ it.print ++ y = (x ++ b) ++ 62 :: y := by rw [h2]; simp
  rw [e, ink_behind (by omega)]
  have e2 : x ++ b ++ [62] = x ++ it.print := by rw [h2]; simp
  rw [e2, ink_append (by rw [h1]; exact headOk_of_lt (by omega))]

theorem at_left {src x y : Str} {i : Nat} (h : At src i (x ++ y)) : At src i x := by
  obtain ⟨r, hr⟩ := h
  exact ⟨y ++ r, by rw [hr, List.append_assoc]⟩

theorem at_right {src x y : Str} {i : Nat} (h : At src i (x ++ y)) : At src (i + x.length) y := by
  obtain ⟨r, hr⟩ := h
  refine ⟨r, ?_⟩
  rw [← List.drop_drop, hr, List.append_assoc, List.drop_left]

theorem closeVoids_text {j : Nat} {l : List Item} (h : nodesAll j l = []) : closeVoids l = l := by
  induction l generalizing j with
  | nil => rfl
  | cons it l ih =>
    rw [nodesAll, List.append_eq_nil_iff] at h
    rw [closeVoids, ih h.2]
    cases it <;> simp [Item.nodes, Item.closeVoid] at h ⊢

/-- An element gives one node. -/
theorem nodes_element {it : Item} (h : it.isElement = true) (i : Nat) :
    ∃ c, it.nodes i = [c] ∧ c.start = i ∧ c.stop = i + it.print.length := by
  cases it with
  | text t => cases h
  | comment b => cases h
  | doctype w b => cases h
  | elem tag kids gap =>
    refine ⟨_, rfl, rfl, ?_⟩
    simp [Item.print]; omega
  | void tag =>
    refine ⟨_, rfl, rfl, ?_⟩
    simp [Item.print]; omega
  | selfClosed tag =>
    refine ⟨_, rfl, rfl, ?_⟩
    simp [Item.print]; omega

theorem nodes_text {it : Item} (h : it.isElement = false) (i : Nat) : it.nodes i = [] ∧ it.closeVoid = it := by
  cases it <;> simp [Item.isElement] at h <;> exact ⟨rfl, by simp [Item.closeVoid]⟩

theorem Node.beautify_last {o : FormatOptions} {src : Str} {level : Nat} {n : Node} {t : Str}
    (h : n.beautify o src level = .ok t) : ∃ y, t = y ++ [62] := by
  obtain ⟨tag, start, stop, children, closed, ste, ets, attrs⟩ := n
  unfold Node.beautify at h
  cases tag with
  | none => cases h
  | some tag =>
    simp only [unwrap, bind, Except.bind] at h
    cases ets with
    | none =>
      cases h
      generalize openText o level _ tag = z
      split
      · exact ⟨z ++ ([10] ++ indentText o level ++ [47]), by simp⟩
      · exact ⟨z ++ [32, 47], by simp⟩
    | some e =>
      cases ste with
      | none => cases h
      | some s =>
        dsimp only at h
        obtain ⟨kids, hk, h⟩ := bind_ok h
        obtain ⟨wrap, hw, h⟩ := bind_ok h
        obtain ⟨text, ht, h⟩ := bind_ok h
        cases h
        exact ⟨_, rfl⟩

theorem ink_kid {o : FormatOptions} {src : Str} {level : Nat} {n : Node} {t b a : Str}
    (h : n.beautify o src level = .ok t) : ink (b ++ [10] ++ t ++ a) = ink b ++ ink t ++ ink a := by
  obtain ⟨y, rfl⟩ := Node.beautify_last h
  have e : b ++ [10] ++ (y ++ [62]) ++ a = (b ++ [10] ++ y) ++ 62 :: a := by simp
  rw [e, ink_behind (by omega)]
  have e : b ++ [10] ++ y ++ [62] = b ++ 10 :: (y ++ [62]) := by simp
  rw [e, ink_append (headOk_of_lt (by omega))]
  have := ink_left Layout.newline (y ++ [62])
  rw [List.singleton_append] at this
  rw [this]

mutual
theorem Item.beautify_ink {o : FormatOptions} {src : Str} {level i : Nat} {it : Item} {n : Node} {t : Str}
    {void : List Str} (hleg : it.Legal void) (hn : it.nodes i = [n]) (hat : At src i it.print) (h : n.beautify o src level = .ok t) :
    ink t = ink it.closeVoid.print := by
  match it, hleg, hn, hat with
  | .text _, _, hn, _ => simp [Item.nodes] at hn
  | .comment _, _, hn, _ => simp [Item.nodes] at hn
  | .doctype _ _, _, hn, _ => simp [Item.nodes] at hn
  | .void tag, hleg, hn, _ =>
    simp only [Item.nodes, List.cons.injEq, and_true, Item.Legal] at hn hleg
    subst hn
    unfold Node.beautify at h
    simp only [unwrap, bind, Except.bind] at h
    cases h
    have e : ∀ (w : Str) (hw : Layout w), w ≠ [] → ∀ x y : Str, ink x = ink y → ink (x ++ (w ++ b!"/>")) = ink (y ++ b!"/>") := by
      intro w hw hne x y hxy
      rw [ink_append (hw.headOk' hne _), ink_left hw, ink_append (headOk_of_lt (by omega)), hxy]
    simp only [Item.closeVoid, Item.print]
    split
    · exact e _ (Layout.newline.append (Layout.indent o level)) (by simp) _ _ (ink_openText o level i _ tag hleg.1 rfl)
    · exact e [32] layout_space (by simp) _ _ (ink_openText o level i _ tag hleg.1 rfl)
  | .selfClosed tag, hleg, hn, _ =>
    simp only [Item.nodes, List.cons.injEq, and_true, Item.Legal] at hn hleg
    subst hn
    unfold Node.beautify at h
    simp only [unwrap, bind, Except.bind] at h
    cases h
    have e : ∀ (w : Str) (hw : Layout w), w ≠ [] → ∀ x y : Str, ink x = ink y → ink (x ++ (w ++ b!"/>")) = ink (y ++ b!"/>") := by
      intro w hw hne x y hxy
      rw [ink_append (hw.headOk' hne _), ink_left hw, ink_append (headOk_of_lt (by omega)), hxy]
    simp only [Item.closeVoid, Item.print]
    split
    · exact e _ (Layout.newline.append (Layout.indent o level)) (by simp) _ _ (ink_openText o level i _ tag hleg.1 rfl)
    · exact e [32] layout_space (by simp) _ _ (ink_openText o level i _ tag hleg.1 rfl)
  | .elem tag kids gap, hleg, hn, hat =>
    simp only [Item.nodes, List.cons.injEq, and_true, Item.Legal] at hn hleg
    have hat1 : At src (i + tag.print.length + 1) (printAll kids ++ (b!"</" ++ tag.name ++ gap ++ b!">")) := by
      simp only [Item.print] at hat
      rw [List.append_assoc] at hat
      have := at_right hat
      rwa [List.length_append, ← Nat.add_assoc] at this
    generalize hs : i + tag.print.length + 1 = s at hn hat1
    have hat2 := at_left hat1
    subst hn
    unfold Node.beautify at h
    simp only [unwrap, bind, Except.bind] at h
    obtain ⟨kt, hk, h⟩ := bind_ok h
    obtain ⟨wrap, hw, h⟩ := bind_ok h
    obtain ⟨text, ht, h⟩ := bind_ok h
    cases h
    have hkids : ink (kt ++ text) = ink (printAll (closeVoids kids)) := by
      cases hkn : nodesAll s kids with
      | nil =>
        rw [hkn] at hk ht
        simp only [Node.beautifyKids, Except.ok.injEq] at hk
        subst hk
        simp only [leafText, List.isEmpty_nil, if_true] at ht
        rw [List.nil_append, ink_textOnly ht, bytesIn_of_at hat2, closeVoids_text hkn]
      | cons c l =>
        rw [hkn] at hk ht
        simp only [leafText, List.isEmpty_cons] at ht
        cases ht
        rw [← hkn] at hk
        have hleg' : AllLegal void kids := by
          rcases hleg.2.2.2 with h | ⟨body, rfl, -⟩
          · exact h.2
          · cases hkn
        have := Item.beautifyKids_ink hleg' (by simp [hkn]) hat2 (Nat.le_refl s) hk
        rw [bytesIn_self, List.nil_append] at this
        rw [List.append_nil, this]
    have ho := ink_openText o level i
      ⟨some tag.name, i, s + (printAll kids).length + tag.name.length + gap.length + 3, nodesAll s kids, true, some s,
        some (s + (printAll kids).length), tag.nodes i⟩ tag hleg.1 rfl
    generalize hop : openText o level _ tag.name = op at ho ⊢
    generalize hb1 : attrsWrap o level _ tag.name = b1
    have l1 := optLayout o level (b1 = true)
    have l2 := optLayout o level (b1 = true ∨ wrap = true)
    generalize (if b1 = true then [10] ++ indentText o level else []) = w1 at l1 ⊢
    generalize (if b1 = true ∨ wrap = true then [10] ++ indentText o level else []) = w2 at l2 ⊢
    simp only [Item.closeVoid, Item.print]
    have e1 : op ++ w1 ++ b!">" ++ kt ++ text ++ w2 ++ b!"</" ++ tag.name ++ b!">" =
        op ++ (w1 ++ 62 :: ((kt ++ text) ++ (w2 ++ 60 :: (b!"/" ++ tag.name ++ b!">")))) := by simp
    have e2 : tag.print ++ b!">" ++ printAll (closeVoids kids) ++ (b!"</" ++ tag.name ++ gap ++ b!">") =
        tag.print ++ 62 :: (printAll (closeVoids kids) ++ 60 :: (b!"/" ++ tag.name ++ gap ++ b!">")) := by simp
    have e4 : ink (60 :: (b!"/" ++ tag.name ++ gap ++ b!">")) = ink (60 :: (b!"/" ++ tag.name ++ b!">")) := by
      have e5 : 60 :: (b!"/" ++ tag.name ++ gap ++ b!">") = (b!"</" ++ tag.name) ++ (gap ++ b!">") := by simp
      have e6 : 60 :: (b!"/" ++ tag.name ++ b!">") = (b!"</" ++ tag.name) ++ b!">" := by simp
      rw [e5, e6, ink_append (headOk_spaces hleg.2.1 (headOk_of_lt (by omega))), ink_spaces_left hleg.2.1,
        ink_append (headOk_of_lt (by omega))]
    have e3 : ∀ z : Str, ink (62 :: z) = [62] ++ ink z := fun z => ink_ascii (w := [62]) (by simp) z
    have hw1 : ∀ z : Str, HeadOk (w1 ++ 62 :: z) := by
      intro z
      cases hw1 : w1 with
      | nil => exact headOk_of_lt (by omega)
      | cons a l => rw [← hw1]; exact l1.headOk' (by simp [hw1]) _
    have hw2 : ∀ z : Str, HeadOk (w2 ++ 60 :: z) := by
      intro z
      cases hw2 : w2 with
      | nil => exact headOk_of_lt (by omega)
      | cons a l => rw [← hw2]; exact l2.headOk' (by simp [hw2]) _
    rw [e1, e2, ink_append (hw1 _), ink_left l1, e3, ink_append (hw2 _), ink_left l2, hkids, ho,
      ink_append (x := tag.print) (headOk_of_lt (by omega)), e3,
      ink_append (x := printAll _) (headOk_of_lt (by omega)), e4]
theorem Item.beautifyKids_ink {o : FormatOptions} {src : Str} {level prev i : Nat} {kids : List Item} {t : Str}
    {void : List Str} (hleg : AllLegal void kids) (hne : nodesAll i kids ≠ []) (hat : At src i (printAll kids)) (hp : prev ≤ i)
    (h : Node.beautifyKids o src level prev (i + (printAll kids).length) (nodesAll i kids) = .ok t) :
    ink t = ink (bytesIn src prev i ++ printAll (closeVoids kids)) := by
  match kids, hleg, hne, hat, h with
  | [], _, hne, _, _ => exact absurd rfl hne
  | it :: l, hleg, hne, hat, h =>
    simp only [AllLegal] at hleg
    have hit : At src i it.print := at_left hat
    have hl : At src (i + it.print.length) (printAll l) := at_right hat
    have hlen : i + (printAll (it :: l)).length = i + it.print.length + (printAll l).length := by
      rw [printAll, List.length_append]; omega
    rw [hlen] at h
    rw [nodesAll] at h hne
    rw [closeVoids, printAll]
    cases he : it.isElement with
    | false =>
      obtain ⟨h1, h2⟩ := nodes_text he i
      rw [h1, List.nil_append] at h hne
      rw [Item.beautifyKids_ink hleg.2 hne hl (by omega) h, h2, ← bytesIn_append hp (Nat.le_add_right i it.print.length),
        bytesIn_of_at hit, List.append_assoc]
    | true =>
      obtain ⟨c, h1, h2, h3⟩ := nodes_element he i
      rw [h1] at h
      have hv : it.closeVoid.isElement = true := by rw [closeVoid_element, he]
      rw [← List.append_assoc, ink_element hv]
      cases hnl : nodesAll (i + it.print.length) l with
      | nil =>
        rw [hnl] at h
        rw [List.append_nil] at h
        unfold Node.beautifyKids at h
        obtain ⟨b, hb, h⟩ := bind_ok h
        obtain ⟨x, hx, h⟩ := bind_ok h
        obtain ⟨a, ha, h⟩ := bind_ok h
        cases h
        have hb' := (sliceStr_ok hb).2.2.2.2
        have ha' := (sliceStr_ok ha).2.2.2.2
        subst hb' ha'
        have hxe := Item.beautify_ink hleg.1 h1 hit hx
        rw [ink_kid hx, hxe, ink_beautifyText, ink_beautifyText, closeVoids_text hnl, h2, h3, bytesIn_of_at hl]
      | cons d r =>
        rw [hnl, List.singleton_append] at h
        unfold Node.beautifyKids at h
        obtain ⟨b, hb, h⟩ := bind_ok h
        obtain ⟨x, hx, h⟩ := bind_ok h
        obtain ⟨y, hy, h⟩ := bind_ok h
        cases h
        have hb' := (sliceStr_ok hb).2.2.2.2
        subst hb'
        have hxe := Item.beautify_ink hleg.1 h1 hit hx
        rw [← hnl, h3] at hy
        have hye := Item.beautifyKids_ink hleg.2 (by simp [hnl]) hl (Nat.le_refl _) hy
        rw [bytesIn_self, List.nil_append] at hye
        rw [ink_kid hx, hxe, hye, ink_beautifyText, h2]
end

/-- The loop over the roots. -/
theorem beautifyRoots_ink {o : FormatOptions} {src : Str} {i : Nat} {items : List Item} {t : Str}
    {void : List Str} (hleg : AllLegal void items) (hat : At src i (printAll items)) (h : beautifyRoots o src (nodesAll i items) = .ok t) :
    ink t = ink (printAll (kept items)) := by
  unfold kept
  induction items generalizing i t with
  | nil => cases h; rfl
  | cons it l ih =>
    simp only [AllLegal] at hleg
    have hit : At src i it.print := at_left hat
    have hl : At src (i + it.print.length) (printAll l) := at_right hat
    rw [nodesAll] at h
    rw [List.filter_cons]
    cases he : it.isElement with
    | false =>
      rw [(nodes_text he i).1, List.nil_append] at h
      exact ih hleg.2 hl h
    | true =>
      obtain ⟨c, h1, h2, h3⟩ := nodes_element he i
      rw [h1, List.singleton_append] at h
      unfold beautifyRoots at h
      obtain ⟨x, hx, h⟩ := bind_ok h
      obtain ⟨r, hr, h⟩ := bind_ok h
      cases h
      simp only [if_true, closeVoids, printAll]
      have hv : it.closeVoid.isElement = true := by rw [closeVoid_element, he]
      have := ink_element hv [] (printAll (closeVoids (l.filter (·.isElement))))
      rw [List.nil_append] at this
      rw [this, ink_nil, List.nil_append, ← ih hleg.2 hl hr, ← Item.beautify_ink hleg.1 h1 hit hx]
      obtain ⟨y, rfl⟩ := Node.beautify_last hx
      have e : y ++ [62] ++ r = y ++ 62 :: r := by simp
      rw [e, ink_behind (by omega)]

end Html
