import Verif.Proof.Plain
import Verif.Proof.SelectionPanics

/-!
# Properties of formatting (C36, C37, C38, C55)
-/

namespace Html.Props
open Html Spec

/-! ### C36 -/

theorem formatRange_ok {u : Uni} {cs : Bool} {void : List Str} {o : FormatOptions} {d : TextDoc} {r : Range}
    {es : List TextEdit} (h : formatRange u cs void o d r = .ok es) :
    ∃ range value, editRange d (startOffset d.text (d.offsetAt r.start)) (endOffset d.text (d.offsetAt r.stop)) =
        .ok range ∧
      sliceStr d.text 0 (startOffset d.text (d.offsetAt r.start)) =
        .ok (d.text.take (startOffset d.text (d.offsetAt r.start))) ∧
      sliceStr d.text (startOffset d.text (d.offsetAt r.start)) (endOffset d.text (d.offsetAt r.stop)) = .ok value ∧
      ((insideTag (d.text.take (startOffset d.text (d.offsetAt r.start))) = true ∧ es = [⟨range, value⟩]) ∨
       (insideTag (d.text.take (startOffset d.text (d.offsetAt r.start))) = false ∧ ∃ level result,
        initialLevel o d (startOffset d.text (d.offsetAt r.start)) range = .ok level ∧
        htmlBeautify u cs void o (trimLeftStr value) = .ok result ∧
        es = [⟨range, indentResult o level (range.start.character = 0) result⟩])) := by
  unfold formatRange at h
  dsimp only at h
  generalize startOffset d.text (d.offsetAt r.start) = s at *
  generalize endOffset d.text (d.offsetAt r.stop) = e at *
  obtain ⟨range, h1, h⟩ := bind_ok h
  obtain ⟨first, h2, h⟩ := bind_ok h
  obtain ⟨value, h3, h⟩ := bind_ok h
  have hf := (sliceStr_ok h2).2.2.2.2
  have hf' : first = d.text.take s := by rw [hf]; rfl
  rw [hf'] at h2 h
  refine ⟨range, value, h1, h2, h3, ?_⟩
  cases hi : insideTag (d.text.take s) with
  | true =>
    rw [hi] at h
    cases h
    exact .inl ⟨rfl, rfl⟩
  | false =>
    rw [hi] at h
    obtain ⟨level, h4, h⟩ := bind_ok h
    obtain ⟨result, h5, h⟩ := bind_ok h
    cases h
    exact .inr ⟨rfl, level, result, h4, h5, rfl⟩

theorem format_none_ok {u : Uni} {cs : Bool} {void : List Str} {o : FormatOptions} {d : TextDoc}
    {es : List TextEdit} (h : format u cs void o d none = .ok es) :
    ∃ result, htmlBeautify u cs void o (trimLeftStr d.text) = .ok result ∧
      es = [⟨⟨⟨0, 0⟩, d.posAt d.text.length⟩, result⟩] := by
  obtain ⟨result, h1, h⟩ := bind_ok (show (htmlBeautify u cs void o (trimLeftStr d.text)).bind _ = _ from h)
  cases h
  exact ⟨result, h1, rfl⟩

/-- **C36.** Formatting gives exactly one edit. -/
theorem C36_one_edit (u : Uni) (cs : Bool) (void : List Str) (o : FormatOptions) (d : TextDoc) (r : Option Range)
    (es : List TextEdit) (h : format u cs void o d r = .ok es) : ∃ e, es = [e] := by
  cases r with
  | none =>
    obtain ⟨result, _, rfl⟩ := format_none_ok h
    exact ⟨_, rfl⟩
  | some r =>
    obtain ⟨range, value, _, _, _, ⟨_, rfl⟩ | ⟨_, level, result, _, _, rfl⟩⟩ := formatRange_ok h <;> exact ⟨_, rfl⟩

/-- **C36.** Without a range the edit covers the whole document. -/
theorem C36_whole_document (u : Uni) (cs : Bool) (void : List Str) (o : FormatOptions) (d : TextDoc)
    (es : List TextEdit) (h : format u cs void o d none = .ok es) :
    ∃ e, es = [e] ∧ e.range = ⟨⟨0, 0⟩, d.posAt d.text.length⟩ := by
  obtain ⟨result, _, rfl⟩ := format_none_ok h
  exact ⟨_, rfl, rfl⟩

theorem format_none_iff {u : Uni} {cs : Bool} {void : List Str} {o : FormatOptions} {d : TextDoc} :
    (∃ es, format u cs void o d none = .ok es) ↔ ∃ t, htmlBeautify u cs void o (trimLeftStr d.text) = .ok t := by
  constructor
  · rintro ⟨es, h⟩
    obtain ⟨result, h, _⟩ := format_none_ok h
    exact ⟨result, h⟩
  · rintro ⟨t, h⟩
    simp only [format, h, bind, Except.bind]
    exact ⟨_, rfl⟩

/-- **C36.** Formatting a UTF-8 document that can be parsed (without the white space at its start)
returns exactly if every element that is shown has a name: the roots, and the children of elements
with an end tag. -/
theorem C36_returns_iff (u : Uni) (cs : Bool) (void : List Str) (o : FormatOptions) (d : TextDoc) (cps : List Nat)
    (hu : Utf8 cps d.text) :
    ∃ t, Trimmed d.text t ∧ ∀ roots, parse u cs void t = .ok roots →
      ((∃ es, format u cs void o d none = .ok es) ↔ ∀ n, Shown roots n → n.tag ≠ none) := by
  refine ⟨_, trimLeftStr_trimmed d.text, fun roots h => ?_⟩
  rw [format_none_iff, htmlBeautify_iff (asciiNext_trim (asciiNext_of_utf8 hu)) h]

/-- **C36.** For an ASCII document: it can be parsed, and formatting returns exactly if every element
that is shown has a name. -/
theorem C36_ascii_returns_iff (u : Uni) (cs : Bool) (void : List Str) (o : FormatOptions) (d : TextDoc)
    (ha : isAscii d.text) :
    ∃ t roots, Trimmed d.text t ∧ parse u cs void t = .ok roots ∧
      ((∃ es, format u cs void o d none = .ok es) ↔ ∀ n, Shown roots n → n.tag ≠ none) := by
  obtain ⟨roots, h⟩ := C11_ascii_never_panics u cs void _ (isAscii_trim ha)
  refine ⟨_, roots, trimLeftStr_trimmed d.text, h, ?_⟩
  rw [format_none_iff, htmlBeautify_iff (asciiNext_trim (asciiNext_of_ascii ha)) h]

/-- What follows a `<` in an ordinary document: a name, `/`, `!--` or `!doctype`. -/
def OrdinaryBracket (src : Str) (i : Nat) : Prop :=
  (∃ b, src[i + 1]? = some b ∧ (NameStartByte b ∨ b = 47)) ∨ At src i b!"<!--" ∨
    (b!"<!doctype").isPrefixOf ((src.drop i).map lowerByte) = true

/-- In a text with ordinary brackets every element has a name. -/
theorem ordinary_named {u : Uni} {cs : Bool} {void : List Str} {src : Str} {roots : List Node} {n : Node}
    (h : parse u cs void src = .ok roots) (hb : ∀ i, src[i]? = some 60 → OrdinaryBracket src i)
    (hn : InForest roots n) : n.tag ≠ none := by
  intro htag
  obtain ⟨h1, h2, h3⟩ := parse_open h hn
  have h0 := (parse_done h hn).opn
  have hname := C15_tag_is_source_text u cs void src roots n h hn
  rw [htag] at hname
  obtain ⟨w, hw, hat, hstop, _⟩ := hname
  rcases hb n.start h0 with ⟨b, hb, hb2 | rfl⟩ | hb | hb
  · cases w with
    | nil => exact hstop b hb hb2
    | cons x w =>
      have := at_get0 hat
      rw [hb] at this
      cases this
      have := hw b List.mem_cons_self
      unfold NameStartByte alnum at hb2
      unfold Space at this
      omega
  · have : (b!"</").isPrefixOf (src.drop n.start) = true := by
      have e0 : (src.drop n.start)[0]? = some 60 := by rw [List.getElem?_drop]; exact h0
      have e1 : (src.drop n.start)[1]? = some 47 := by rw [List.getElem?_drop]; exact hb
      match hd : src.drop n.start, e0, e1 with
      | a :: c :: l, e0, e1 =>
        simp at e0 e1
        subst e0 e1
        simp [List.isPrefixOf]
    rw [this] at h1; cases h1
  · obtain ⟨r, hr⟩ := hb
    rw [hr] at h2
    simp [List.isPrefixOf] at h2
  · rw [hb] at h3; cases h3

/-- **C36.** Formatting returns for every ASCII document in which every `<` starts a name, an end tag, a
comment or a doctype. -/
theorem C36_ordinary_returns (u : Uni) (cs : Bool) (void : List Str) (o : FormatOptions) (d : TextDoc)
    (ha : isAscii d.text) (hb : ∀ i, d.text[i]? = some 60 → OrdinaryBracket d.text i) :
    ∃ es, format u cs void o d none = .ok es := by
  obtain ⟨roots, h⟩ := C11_ascii_never_panics u cs void _ (isAscii_trim ha)
  rw [format_none_iff, htmlBeautify_iff (asciiNext_trim (asciiNext_of_ascii ha)) h]
  obtain ⟨k, hk, e⟩ := trimLeftStr_drop d.text
  rw [e] at h
  intro m hm
  refine ordinary_named h (fun i hi => ?_) hm.inForest
  rw [List.getElem?_drop] at hi
  rcases hb (k + i) hi with ⟨b, h1, h2⟩ | h1 | h1
  · exact .inl ⟨b, by rw [List.getElem?_drop]; exact h1, h2⟩
  · right; left
    unfold At at h1 ⊢
    rw [List.drop_drop]
    exact h1
  · right; right
    rw [List.drop_drop]
    exact h1

/-- **C36 fails** for elements without a name: formatting panics (`<>`, a CDATA section). -/
theorem C36_fails_without_name (u : Uni) (cs : Bool) :
    format u cs [b!"br"] .default (.ref b!"<>") none = .error .unwrap ∧
    format u cs [b!"br"] .default (.ref b!"<a><![CDATA[x]]></a>") none = .error .unwrap := by
  cases cs <;> exact ⟨by krfl, by krfl⟩

/-- **C36 fails** for ranges that begin at the start of the document: the code subtracts 1 from 0. -/
theorem C36_fails_at_document_start (u : Uni) (cs : Bool) (void : List Str) (o : FormatOptions) (d : TextDoc)
    (r : Range) (h : ∀ i, i < d.offsetAt r.start → d.text[i]? = some 32 ∨ d.text[i]? = some 9)
    (ha : isAscii d.text) (hi : d.offsetAt r.start ≤ d.text.length) :
    format u cs void o d (some r) = .error .underflow := by
  have hs : startOffset d.text (d.offsetAt r.start) = 0 := by
    generalize d.offsetAt r.start = i at h hi
    have key : extendStart d.text i = 0 := by
      induction i with
      | zero => rfl
      | succ i ih =>
        unfold extendStart
        have hb : isBlankAt d.text i = true := by
          unfold isBlankAt
          rw [sliceStr_eq (by omega) (isAscii_boundary ha (by omega)) (isAscii_boundary ha (by omega)),
            bytesIn_eq_take]
          have := h i (by omega)
          cases hd : d.text.drop i with
          | nil =>
            have : d.text.length ≤ i := by simpa using hd
            omega
          | cons b l =>
            have hb : d.text[i]? = some b := by
              have := congrArg (fun l => l[0]?) hd
              simpa using this
            rw [hb] at this
            rcases this with h | h <;> cases h <;> rfl
        rw [if_pos hb]
        exact ih (fun j hj => h j (by omega)) (by omega)
    unfold startOffset
    simp [key]
  show formatRange u cs void o d r = _
  unfold formatRange editRange
  dsimp only
  rw [hs]
  rfl

/-- **C36.** If formatting a range returns, then either the edit changes nothing (the range starts inside
a tag), or the line of the edit does not start the document and the tab size is not 0. -/
theorem C36_range_needs (u : Uni) (cs : Bool) (void : List Str) (o : FormatOptions) (d : TextDoc) (r : Range)
    (e : TextEdit) (h : format u cs void o d (some r) = .ok [e]) :
    (∃ s t, e.newText = bytesIn d.text s t ∧ s ≤ d.offsetAt r.start ∧ insideTag (d.text.take s) = true) ∨
    (d.offsetAt ⟨e.range.start.line, 0⟩ ≠ 0 ∧ o.tabSize ≠ 0) := by
  obtain ⟨range, value, h1, h2, h3, ⟨h4, h5⟩ | ⟨h4, level, result, h5, h6, h7⟩⟩ := formatRange_ok h
  · left
    cases h5
    refine ⟨_, _, (sliceStr_ok h3).2.2.2.2, ?_, h4⟩
    have := (extendStart_spec d.text (d.offsetAt r.start)).1
    unfold startOffset
    dsimp only
    split
    · exact this
    · split <;> omega
  · right
    cases h7
    have hs : startOffset d.text (d.offsetAt r.start) ≠ 0 := by
      intro hs
      rw [hs] at h1
      simp [editRange, subU, bind, Except.bind] at h1
    unfold initialLevel at h5
    rw [if_pos hs] at h5
    unfold computeIndentLevel at h5
    obtain ⟨k, hk, h5⟩ := bind_ok h5
    obtain ⟨n, hn, h5⟩ := bind_ok h5
    refine ⟨fun h0 => ?_, fun h0 => ?_⟩
    · dsimp only at h0
      rw [h0] at hk
      simp [subU] at hk
    · rw [if_pos h0] at h5; cases h5

/-- **C36 fails** for ranges on the first line: formatting panics. -/
theorem C36_fails_on_first_line (u : Uni) (cs : Bool) :
    format u cs [b!"br"] .default (.ref b!"<a></a>\n<b></b>") (some ⟨⟨0, 3⟩, ⟨0, 7⟩⟩) = .error .underflow := by
  cases cs <;> krfl

/-- **C36 fails** for the tab size 0: formatting a range divides by it. -/
theorem C36_fails_for_tab_size_zero (u : Uni) (cs : Bool) :
    format u cs [b!"br"] { FormatOptions.default with tabSize := 0 } (.ref b!"<a></a>\n <b></b>") (some ⟨⟨1, 1⟩, ⟨1, 8⟩⟩) =
      .error .divZero := by
  cases cs <;> krfl


/-- The Unicode tables and void elements of the examples are `exUni` and `br`. -/
example : returns (format exUni false [b!"br"] .default (.ref b!"<a>x<br></a>") none) (fun es =>
    es.map (·.newText) = [b!"<a>x\n    <br /></a>"]) = true := by decide +kernel

/-- The hypotheses of `C36_ordinary_returns` hold for `<!DOCTYPE a><b></b>`. -/
example : isAscii b!"<!DOCTYPE a><b></b>" ∧
    ∀ i, b!"<!DOCTYPE a><b></b>"[i]? = some 60 → OrdinaryBracket b!"<!DOCTYPE a><b></b>" i := by
  refine ⟨by decide, fun i hi => ?_⟩
  have h : i = 0 ∨ i = 12 ∨ i = 15 := by
    have key : ∀ i, i < 19 → b!"<!DOCTYPE a><b></b>"[i]? = some 60 → i = 0 ∨ i = 12 ∨ i = 15 := by decide
    exact key i (List.getElem?_eq_some_iff.1 hi).1 hi
  rcases h with rfl | rfl | rfl
  · exact .inr (.inr (by decide))
  · exact .inl ⟨98, rfl, .inl (by unfold NameStartByte alnum; omega)⟩
  · exact .inl ⟨47, rfl, .inr rfl⟩

/-! ### C37 -/

/-- **C37.** The formatted document consists exactly of the pieces of the parsed document, in their
order and with white space between them: `<name`, the attributes, `>`, the words of the texts and the
children, `</name>`; for an element without an end tag `/>` instead. -/
theorem C37_pieces (u : Uni) (cs : Bool) (void : List Str) (o : FormatOptions) (d : TextDoc) (e : TextEdit)
    (h : format u cs void o d none = .ok [e]) :
    ∃ t roots, Trimmed d.text t ∧ parse u cs void t = .ok roots ∧ Laid Layout (docPieces t roots) e.newText := by
  obtain ⟨result, h1, h2⟩ := format_none_ok h
  cases h2
  obtain ⟨roots, h3, h4⟩ := htmlBeautify_laid h1
  exact ⟨_, roots, trimLeftStr_trimmed d.text, h3, h4⟩

/-- The attributes are written in the order of their offsets, none is lost and none is made up. -/
theorem insertAttr_perm (x : Str × Attr) (l : List (Str × Attr)) : (insertAttr x l).Perm (x :: l) := by
  induction l with
  | nil => exact List.Perm.refl _
  | cons y l ih =>
    unfold insertAttr
    split
    · exact List.Perm.refl _
    · exact (List.Perm.cons y ih).trans (List.Perm.swap x y l)

theorem insertAttr_pairwise {x : Str × Attr} {l : List (Str × Attr)}
    (h : l.Pairwise (fun a b => a.2.offset ≤ b.2.offset)) :
    (insertAttr x l).Pairwise (fun a b => a.2.offset ≤ b.2.offset) := by
  induction l with
  | nil => simp [insertAttr]
  | cons y l ih =>
    obtain ⟨h1, h2⟩ := List.pairwise_cons.1 h
    unfold insertAttr
    split
    · rename_i hle
      refine List.pairwise_cons.2 ⟨fun z hz => ?_, h⟩
      rcases List.mem_cons.1 hz with rfl | hz
      · exact hle
      · exact Nat.le_trans hle (h1 z hz)
    · rename_i hlt
      refine List.pairwise_cons.2 ⟨fun z hz => ?_, ih h2⟩
      rcases List.mem_cons.1 ((insertAttr_perm x l).mem_iff.1 hz) with rfl | hz
      · omega
      · exact h1 z hz

/-- **C37.** The attributes of an element are all written, once each and in the order in which they
are written in the source. -/
theorem C37_attributes_in_order (n : Node) :
    n.attributesByOrder.Perm n.attributes ∧
    n.attributesByOrder.Pairwise (fun a b => a.2.offset ≤ b.2.offset) := by
  unfold Node.attributesByOrder
  induction n.attributes with
  | nil => exact ⟨List.Perm.refl _, List.Pairwise.nil⟩
  | cons x l ih =>
    rw [List.foldr_cons]
    exact ⟨(insertAttr_perm x _).trans (List.Perm.cons x ih.1), insertAttr_pairwise ih.2⟩

theorem blank_no_bracket {w : Str} (h : Blank w) : 60 ∉ w := by
  have := Groups.byte (charsOf_groups w) (a := 60) (by omega) (fun hm => by have := h _ hm; revert this; decide)
  rwa [charsOf_flatten] at this

/-- Items without a text at the start. -/
theorem drop_text {void : List Str} {items : List Item} {w t : Str} (hl : AllLegal void items)
    (h : printAll items = w ++ t) (hw : 60 ∉ w) :
    ∃ items', AllLegal void items' ∧ printAll items' = t ∧
      items'.filter (·.isElement) = items.filter (·.isElement) := by
  induction items generalizing w with
  | nil =>
    have h' : w = [] ∧ t = [] := by simpa [printAll] using h
    exact ⟨[], trivial, by rw [h'.2]; rfl, rfl⟩
  | cons it l ih =>
    have other : (∃ y, it.print = 60 :: y) → ∃ items', AllLegal void items' ∧ printAll items' = t ∧
        items'.filter (·.isElement) = (it :: l).filter (·.isElement) := by
      rintro ⟨y, hy⟩
      cases w with
      | nil => exact ⟨it :: l, hl, h, rfl⟩
      | cons b w =>
        rw [printAll, hy] at h
        simp only [List.cons_append, List.cons.injEq] at h
        exact absurd (by rw [← h.1]; exact List.mem_cons_self) hw
    cases it with
    | text x =>
      simp only [AllLegal, Item.Legal] at hl
      rw [printAll, Item.print] at h
      rcases List.append_eq_append_iff.1 h with ⟨w', h1, h2⟩ | ⟨x', h1, h2⟩
      · obtain ⟨items', h3, h4, h5⟩ := ih hl.2 h2 (fun hm => hw (by rw [h1]; exact List.mem_append_right _ hm))
        exact ⟨items', h3, h4, by rw [h5]; rfl⟩
      · refine ⟨.text x' :: l, ?_, by rw [printAll, Item.print, h2], rfl⟩
        simp only [AllLegal, Item.Legal]
        exact ⟨fun hm => hl.1 (by rw [h1]; exact List.mem_append_right _ hm), hl.2⟩
    | comment x => exact other (by simp [Item.print])
    | doctype x y => exact other (by simp [Item.print])
    | elem x y z => exact other (by simp [Item.print, TagText.print])
    | void x => exact other (by simp [Item.print, TagText.print])
    | selfClosed x => exact other (by simp [Item.print, TagText.print])

/-- **C37.** Formatting a printed document (any forest of elements, texts, comments and doctypes) keeps the characters
of its elements other than white space: void elements get a slash, and the texts, comments and doctypes between
the elements of the top level are lost. -/
theorem C37_printed (u : Uni) (cs : Bool) (void : List Str) (o : FormatOptions) (d : TextDoc) (e : TextEdit)
    (items : List Item) (hl : AllLegal void items) (hd : d.text = printAll items)
    (h : format u cs void o d none = .ok [e]) : ink e.newText = ink (printAll (kept items)) := by
  obtain ⟨result, h1, h2⟩ := format_none_ok h
  cases h2
  obtain ⟨w, hw1, hw2, _⟩ := trimLeftStr_trimmed d.text
  obtain ⟨items', hl', ht, hk⟩ := drop_text hl (hd.symm.trans hw1) (blank_no_bracket hw2)
  unfold kept
  rw [← hk]
  change _ = ink (printAll (kept items'))
  rw [← ht] at h1
  clear hw1 hd hl hk
  revert h1
  generalize items' = items at hl'
  intro h1
  have hl := hl'
  unfold htmlBeautify at h1
  obtain ⟨roots, hr, h1⟩ := bind_ok h1
  obtain ⟨t, ht, h1⟩ := bind_ok h1
  cases h1
  have hroots := parse_print hl hr
  subst hroots
  have := beautifyRoots_ink (i := 0) hl ⟨[], by simp⟩ ht
  dsimp only
  split
  · rw [ink_right Layout.newline]; exact this
  · exact this

mutual
/-- There is no void element among the items. -/
def _root_.Html.Spec.Item.noVoid : Item → Bool
  | .elem _ kids _ => noVoids kids
  | .void _ => false
  | _ => true
/-- There is no void element among the items. -/
def noVoids : List Item → Bool
  | [] => true
  | i :: l => i.noVoid && noVoids l
end

mutual
theorem closeVoid_self {i : Item} (h : Item.noVoid i = true) : i.closeVoid = i := by
  match i, h with
  | .text _, _ => simp [Item.closeVoid]
  | .comment _, _ => simp [Item.closeVoid]
  | .doctype _ _, _ => simp [Item.closeVoid]
  | .selfClosed _, _ => simp [Item.closeVoid]
  | .void _, h => simp [Item.noVoid] at h
  | .elem tag kids gap, h => rw [Item.closeVoid, closeVoids_self (by simpa [Item.noVoid] using h)]
theorem closeVoids_self {l : List Item} (h : noVoids l = true) : closeVoids l = l := by
  match l, h with
  | [], _ => rfl
  | i :: l, h =>
    simp [noVoids] at h
    rw [closeVoids, closeVoid_self h.1, closeVoids_self h.2]
end

theorem ink_roots {items : List Item} (h : ∀ it ∈ items, it.isElement = true ∨ ∃ t, it = .text t ∧ Spaces t) :
    ink (printAll items) = ink (printAll (items.filter (·.isElement))) := by
  induction items with
  | nil => rfl
  | cons it l ih =>
    have ih := ih fun x hx => h x (List.mem_cons_of_mem _ hx)
    rcases h it List.mem_cons_self with h1 | ⟨t, rfl, ht⟩
    · have e := ink_element h1 [] (printAll l)
      have e' := ink_element h1 [] (printAll (l.filter (·.isElement)))
      simp only [List.nil_append] at e e'
      rw [List.filter_cons, if_pos h1, printAll, printAll, e, e', ih]
    · rw [List.filter_cons, if_neg (by simp [Item.isElement]), printAll, Item.print, ink_spaces_left ht, ih]

/-- **C37.** Formatting a printed document without void elements that consists of elements and white
space on its top level keeps all its characters other than white space. -/
theorem C37_preserved (u : Uni) (cs : Bool) (void : List Str) (o : FormatOptions) (d : TextDoc) (e : TextEdit)
    (items : List Item) (hl : AllLegal void items) (hv : noVoids items = true)
    (hroot : ∀ it ∈ items, it.isElement = true ∨ ∃ t, it = .text t ∧ Spaces t) (hd : d.text = printAll items)
    (h : format u cs void o d none = .ok [e]) : ink e.newText = ink d.text := by
  have := C37_printed u cs void o d e items hl hd h
  rw [this, hd, ink_roots hroot]
  unfold kept
  rw [closeVoids_self]
  clear hd hl hroot this
  induction items with
  | nil => rfl
  | cons it l ih =>
    simp only [noVoids, Bool.and_eq_true] at hv
    rw [List.filter_cons]
    split
    · simp only [noVoids, Bool.and_eq_true]; exact ⟨hv.1, ih hv.2⟩
    · exact ih hv.2

/-- The hypotheses of `C37_printed` hold for the printed document of C20, whose last text is lost. -/
example : AllLegal [b!"br"] exItems ∧
    printAll (kept exItems) = b!"<Div id=\"x>y\"\n  @on>hi<!-- <p> --><br /> ab <p-1><img src=a/b /></p-1\n><script>if (a<b) {}</script><script type='x'><b></b></script></Div>" := by
  refine ⟨exItems_legal, by decide +kernel⟩

example : returns (format exUni false [b!"br"] .default (.ref b!" <p>a  b<br>c</p>x") none) (fun es =>
    es.map (·.newText) = [b!"<p>a b\n    <br />c</p>"]) = true := by decide +kernel

/-- The hypotheses of `C37_preserved` hold for `\n<p>a  b<i></i></p>`. -/
example : ∃ items, AllLegal [b!"br"] items ∧ noVoids items = true ∧
    (∀ it ∈ items, it.isElement = true ∨ ∃ t, it = .text t ∧ Spaces t) ∧ printAll items = b!"\n<p>a  b<i></i></p>" := by
  refine ⟨[.text b!"\n", .elem ⟨b!"p", [], []⟩ [.text b!"a  b", .elem ⟨b!"i", [], []⟩ [] []] []], ?_, by decide +kernel, ?_,
    by decide +kernel⟩
  · simp only [AllLegal, Item.Legal]
    exact ⟨by decide, ⟨exTagLegal (by decide), by decide, by decide,
      .inl ⟨.inl (exName (by decide) (by decide) (by decide) (by decide)), by decide,
      ⟨exTagLegal (by decide), by decide, by decide,
        .inl ⟨.inl (exName (by decide) (by decide) (by decide) (by decide)), trivial⟩⟩, trivial⟩⟩, trivial⟩
  · intro it h
    simp only [List.mem_cons, List.not_mem_nil, or_false] at h
    rcases h with rfl | rfl
    · exact .inr ⟨_, rfl, by decide⟩
    · exact .inl rfl

/-- **C37 fails**: texts and the doctype on the top level, and the content of elements without an end
tag are lost; the quotes of a value behind white space are lost. -/
theorem C37_fails (u : Uni) (cs : Bool) :
    format u cs [b!"br"] .default (.ref b!"x<p>y") none = .ok [⟨⟨⟨0, 0⟩, ⟨0, 5⟩⟩, b!"<p />"⟩] ∧
    format u cs [b!"br"] .default (.ref b!"<!doctype a><p></p>") none = .ok [⟨⟨⟨0, 0⟩, ⟨0, 19⟩⟩, b!"<p></p>"⟩] ∧
    format u cs [b!"br"] .default (.ref b!"<ul><li>x<li>y</ul>") none =
      .ok [⟨⟨⟨0, 0⟩, ⟨0, 19⟩⟩, b!"<ul>\n    <li /></ul>"⟩] ∧
    format u cs [b!"br"] .default (.ref b!"<p a= \"b\"></p>") none = .ok [⟨⟨⟨0, 0⟩, ⟨0, 14⟩⟩, b!"<p a= b></p>"⟩] := by
  cases cs <;> exact ⟨by krfl, by krfl, by krfl, by krfl⟩

/-! ### C38 -/

/-- **C38 fails**: formatting a formatted document changes it again. -/
theorem C38_fails (u : Uni) (cs : Bool) :
    format u cs [b!"br"] .default (.ref b!"<a>x<b></b></a>") none =
      .ok [⟨⟨⟨0, 0⟩, ⟨0, 15⟩⟩, b!"<a>x\n    <b></b></a>"⟩] ∧
    format u cs [b!"br"] .default (.ref b!"<a>x\n    <b></b></a>") none =
      .ok [⟨⟨⟨0, 0⟩, ⟨1, 15⟩⟩, b!"<a>\n    x\n    <b></b>\n</a>"⟩] := by
  cases cs <;> exact ⟨by krfl, by krfl⟩

/-! ### C55 -/

theorem isEolAt_iff {text : Str} {i : Nat} (h : isEolAt text i = true) : text[i]? = some 10 := by
  unfold isEolAt at h
  cases hs : sliceStr text i (i + 1) with
  | error e => rw [hs] at h; simp [Except.toOption] at h
  | ok x =>
    obtain ⟨h1, h2, h3, h4, h5⟩ := sliceStr_ok hs
    rw [hs] at h
    simp [Except.toOption] at h
    subst h
    have := bytesIn_getElem? text i (i + 1) 0
    rw [← h5, if_pos (by omega)] at this
    simpa using this.symm

/-- The selection of a range request: `s` is the start `i` moved over blanks, either to the start of the
line or so that one blank stays in front of it. -/
def SelectionStart (text : Str) (i s : Nat) : Prop :=
  s ≤ i ∧ (∀ j, s ≤ j → j < i → text[j]? = some 32 ∨ text[j]? = some 9) ∧
  (s = 0 ∨ text[s - 1]? = some 10 ∨ text[s - 1]? = some 32 ∨ text[s - 1]? = some 9 ∨ s = i)

/-- The end `i` of a selection moved over blanks to the end of the line or of the text, or not at all. -/
def SelectionEnd (text : Str) (i t : Nat) : Prop :=
  i ≤ t ∧ (∀ j, i ≤ j → j < t → text[j]? = some 32 ∨ text[j]? = some 9) ∧
  (t = text.length ∨ text[t]? = some 10 ∨ t = i)

theorem startOffset_spec (text : Str) (i : Nat) : SelectionStart text i (startOffset text i) := by
  obtain ⟨h1, h2, h3⟩ := extendStart_spec text i
  unfold startOffset
  dsimp only
  generalize extendStart text i = x at *
  split
  · rename_i h
    refine ⟨h1, fun j a b => isBlankAt_iff (h2 j a b), ?_⟩
    rcases h with h | h
    · exact .inl h
    · exact .inr (.inl (isEolAt_iff h))
  · split
    · rename_i h
      refine ⟨h, fun j a b => isBlankAt_iff (h2 j (by omega) b), ?_⟩
      rcases isBlankAt_iff (h2 x (by omega) h) with h | h
      · exact .inr (.inr (.inl h))
      · exact .inr (.inr (.inr (.inl h)))
    · exact ⟨Nat.le_refl _, fun j a b => absurd a (by omega), by simp⟩

theorem endOffset_spec (text : Str) (i : Nat) : SelectionEnd text i (endOffset text i) := by
  obtain ⟨h1, h2, h3⟩ := extendEnd_spec text (text.length - i) i (by omega)
  unfold endOffset
  dsimp only
  generalize extendEnd text (text.length - i) i = x at *
  split
  · rename_i h
    refine ⟨h1, fun j a b => isBlankAt_iff (h2 j a b), ?_⟩
    rcases h with h | h
    · exact .inl h
    · exact .inr (.inl (isEolAt_iff h))
  · exact ⟨Nat.le_refl _, fun j a b => absurd a (by omega), by simp⟩

/-- **C55.** The edit of a range request covers the selected text and the blanks around it on its lines.
Behind a line break its start is a line below the start of that text. -/
theorem C55_selection (u : Uni) (cs : Bool) (void : List Str) (o : FormatOptions) (d : TextDoc) (r : Range)
    (e : TextEdit) (h : format u cs void o d (some r) = .ok [e]) :
    ∃ s t, SelectionStart d.text (d.offsetAt r.start) s ∧ SelectionEnd d.text (d.offsetAt r.stop) t ∧
      s ≤ t ∧ t ≤ d.text.length ∧ e.range.stop = d.posAt t ∧
      e.range.start = (if d.text[s - 1]? = some 10 then ⟨(d.posAt s).line + 1, 0⟩ else d.posAt s) := by
  obtain ⟨range, value, h1, h2, h3, h4⟩ := formatRange_ok h
  refine ⟨_, _, startOffset_spec _ _, endOffset_spec _ _, (sliceStr_ok h3).1, (sliceStr_ok h3).2.1, ?_⟩
  have he : e.range = range := by
    rcases h4 with ⟨_, h5⟩ | ⟨_, _, _, _, _, h5⟩ <;> cases h5 <;> rfl
  rw [he]
  have hbd := (sliceStr_ok h2).2.2.2.1
  generalize startOffset d.text (d.offsetAt r.start) = s at *
  generalize endOffset d.text (d.offsetAt r.stop) = t at *
  unfold editRange at h1
  obtain ⟨p, hp, h1⟩ := bind_ok h1
  obtain ⟨hp1, rfl⟩ := subU_ok hp
  have hcond : (sliceStr d.text (s - 1) s).toOption = some [10] ↔ d.text[s - 1]? = some 10 := by
    have e1 : s - 1 + 1 = s := by omega
    constructor
    · intro hc
      exact isEolAt_iff (by unfold isEolAt; rw [e1, hc]; rfl)
    · intro hc
      rw [sliceStr_eq (by omega) (isBoundary_of_get hc (by decide)) hbd]
      have hlt := (List.getElem?_eq_some_iff.1 hc).1
      have : bytesIn d.text (s - 1) s = [10] := by
        apply List.ext_getElem?
        intro k
        by_cases hk : k = 0
        · subst hk
          rw [bytesIn_getElem?, if_pos (by omega), Nat.add_zero, hc]; rfl
        · rw [bytesIn_getElem?, if_neg (by omega), List.getElem?_eq_none (by simp; omega)]
      rw [this]; rfl
  by_cases hc : d.text[s - 1]? = some 10
  · rw [if_pos (hcond.2 hc)] at h1
    cases h1
    rw [if_pos hc]
    exact ⟨rfl, rfl⟩
  · rw [if_neg (fun x => hc (hcond.1 x))] at h1
    cases h1
    rw [if_neg hc]
    exact ⟨rfl, rfl⟩

theorem ink_reindent {ind : Str} (hi : Layout ind) (x s : Str) : ink (x ++ reindent ind s) = ink (x ++ s) := by
  unfold reindent
  induction s generalizing x with
  | nil => rfl
  | cons b s ih =>
    rw [List.flatMap_cons]
    by_cases hb : b = 10
    · subst hb
      rw [if_pos rfl, List.append_assoc, List.singleton_append, ink_behind (by omega), ink_left hi]
      have := ih []
      rw [List.nil_append, List.nil_append] at this
      rw [this, ← ink_behind (by omega)]
    · rw [if_neg hb, List.singleton_append, List.append_cons, ih, List.append_cons x b s]

theorem ink_indentResult (o : FormatOptions) (level : Nat) (atStart : Bool) (s : Str) :
    ink (indentResult o level atStart s) = ink s := by
  unfold indentResult
  have hi := Layout.indent o level
  have hr : ink (if s.getLast? = some 10 then reindent (indentText o level) s.dropLast ++ [10]
      else reindent (indentText o level) s) = ink s := by
    have h0 := fun t => ink_reindent hi [] t
    simp only [List.nil_append] at h0
    split
    · rename_i hl
      rw [ink_right Layout.newline, h0]
      obtain ⟨ys, rfl⟩ := List.getLast?_eq_some_iff.1 hl
      rw [List.dropLast_concat, ink_right Layout.newline]
    · exact h0 s
  split
  · split
    · rw [ink_left hi]; exact hr
    · exact hr
  · rfl

/-- **C55.** Inside a tag the text of the edit is the text that it replaces. Elsewhere it consists of the
pieces of the document in the selection, with white space between them; the indentation of the lines
adds white space only. -/
theorem C55_text (u : Uni) (cs : Bool) (void : List Str) (o : FormatOptions) (d : TextDoc) (r : Range)
    (e : TextEdit) (h : format u cs void o d (some r) = .ok [e]) :
    ∃ s t, SelectionStart d.text (d.offsetAt r.start) s ∧ SelectionEnd d.text (d.offsetAt r.stop) t ∧
      ((insideTag (d.text.take s) = true ∧ e.newText = bytesIn d.text s t) ∨
       (insideTag (d.text.take s) = false ∧ ∃ x roots text, Trimmed (bytesIn d.text s t) x ∧
        parse u cs void x = .ok roots ∧ Laid Layout (docPieces x roots) text ∧ ink e.newText = ink text)) := by
  obtain ⟨range, value, h1, h2, h3, h4⟩ := formatRange_ok h
  refine ⟨_, _, startOffset_spec _ _, endOffset_spec _ _, ?_⟩
  have hv := (sliceStr_ok h3).2.2.2.2
  rcases h4 with ⟨h4, h5⟩ | ⟨h4, level, result, h5, h6, h7⟩
  · cases h5
    exact .inl ⟨h4, hv⟩
  · cases h7
    obtain ⟨roots, h8, h9⟩ := htmlBeautify_laid h6
    rw [← hv]
    exact .inr ⟨h4, _, roots, result, trimLeftStr_trimmed _, h8, h9, ink_indentResult ..⟩

/-- A line of a reference document starts at the start or the end of the text or behind a byte that
is not a blank. -/
theorem refOffsetAt_line (text : Str) (l : Nat) :
    refOffsetAt text l 0 = 0 ∨ refOffsetAt text l 0 = text.length ∨
      ∃ b, text[refOffsetAt text l 0 - 1]? = some b ∧ b ≠ 32 ∧ b ≠ 9 := by
  induction text generalizing l with
  | nil => left; cases l <;> rfl
  | cons b t ih =>
    have next : ∀ k, (∃ c, t[k - 1]? = some c ∧ c ≠ 32 ∧ c ≠ 9) → k ≠ 0 →
        ∃ c, (b :: t)[1 + k - 1]? = some c ∧ c ≠ 32 ∧ c ≠ 9 := by
      rintro k ⟨c, hc, h⟩ hk
      refine ⟨c, ?_, h⟩
      rw [show 1 + k - 1 = (k - 1) + 1 by omega, List.getElem?_cons_succ]
      exact hc
    have step : ∀ m, (refOffsetAt t m 0 = 0 → t = [] ∨ (b ≠ 32 ∧ b ≠ 9)) →
        1 + refOffsetAt t m 0 = 0 ∨ 1 + refOffsetAt t m 0 = (b :: t).length ∨
        ∃ c, (b :: t)[1 + refOffsetAt t m 0 - 1]? = some c ∧ c ≠ 32 ∧ c ≠ 9 := by
      intro m hb
      by_cases h0 : refOffsetAt t m 0 = 0
      · rw [h0]
        rcases hb h0 with rfl | hb
        · exact .inr (.inl rfl)
        · exact .inr (.inr ⟨b, rfl, hb⟩)
      · rcases ih m with h | h | h
        · exact absurd h h0
        · right; left; rw [h, List.length_cons]; omega
        · exact .inr (.inr (next _ h h0))
    cases l with
    | zero =>
      unfold refOffsetAt
      by_cases hb : isCont b = true
      · rw [if_pos hb]
        refine step 0 fun _ => .inr ?_
        simp [isCont] at hb
        omega
      · rw [if_neg hb, if_pos rfl]; exact .inl rfl
    | succ l =>
      have e : refOffsetAt (b :: t) (l + 1) 0 = 1 + refOffsetAt t (if isBreak b t then l else l + 1) 0 := rfl
      rw [e]
      cases hb : isBreak b t with
      | true =>
        rw [if_pos rfl]
        refine step l fun _ => .inr ?_
        simp [isBreak] at hb
        omega
      | false =>
        refine step (l + 1) fun h => .inl ?_
        cases t with
        | nil => rfl
        | cons c t =>
          have e : refOffsetAt (c :: t) (l + 1) 0 = 1 + refOffsetAt t (if isBreak c t then l else l + 1) 0 := rfl
          rw [e] at h
          omega

/-- The code computes the indentation from the byte in front of the line. -/
theorem computeIndentLevel_zero {content : Str} {i tab level : Nat}
    (h : i = 0 ∨ i = content.length ∨ ∃ b, content[i - 1]? = some b ∧ b ≠ 32 ∧ b ≠ 9)
    (hl : computeIndentLevel content i tab = .ok level) : level = 0 := by
  unfold computeIndentLevel at hl
  obtain ⟨k, hk, hl⟩ := bind_ok hl
  obtain ⟨hk1, rfl⟩ := subU_ok hk
  have h0 : ∀ n, indentChars tab (content.length - i) (content.drop (i - 1)) = .ok n → n = 0 := by
    intro n hn
    rcases h with h | h | ⟨b, hb, h1, h2⟩
    · omega
    · rw [h, Nat.sub_self] at hn
      cases hn
      rfl
    · cases hf : content.length - i with
      | zero => rw [hf] at hn; cases hn; rfl
      | succ f =>
        rw [hf] at hn
        have hd : ∃ l, content.drop (i - 1) = b :: l := by
          cases hd : content.drop (i - 1) with
          | nil => 
            have := congrArg (fun l => l[0]?) hd
            simp [hb] at this
          | cons c l =>
            have := congrArg (fun l => l[0]?) hd
            simp [hb] at this
            exact ⟨l, by rw [this]⟩
        obtain ⟨l, hd⟩ := hd
        rw [hd, indentChars, if_neg h1, if_neg h2] at hn
        cases hn
        rfl
  obtain ⟨n, hn, hl⟩ := bind_ok hl
  have := h0 n hn
  subst this
  split at hl
  · cases hl
  · cases hl; simp

/-- **C55 fails**: the formatted selection is never indented, although its line is: in a reference
document the text of the edit is the formatted selection at level 0. -/
theorem C55_fails_never_indents (u : Uni) (cs : Bool) (void : List Str) (o : FormatOptions) (text : Str) (r : Range)
    (e : TextEdit) (h : format u cs void o (.ref text) (some r) = .ok [e]) :
    ∃ s t, SelectionStart text (refOffsetAt text r.start.line r.start.character) s ∧
      SelectionEnd text (refOffsetAt text r.stop.line r.stop.character) t ∧
      (e.newText = bytesIn text s t ∨
       ∃ x roots, Trimmed (bytesIn text s t) x ∧ parse u cs void x = .ok roots ∧
        Laid Layout (docPieces x roots) e.newText ∧ htmlBeautify u cs void o x = .ok e.newText) := by
  obtain ⟨range, value, h1, h2, h3, h4⟩ := formatRange_ok h
  refine ⟨_, _, startOffset_spec _ _, endOffset_spec _ _, ?_⟩
  have hv := (sliceStr_ok h3).2.2.2.2
  rcases h4 with ⟨h4, h5⟩ | ⟨h4, level, result, h5, h6, h7⟩
  · cases h5
    exact .inl hv
  · have hl : level = 0 := by
      unfold initialLevel at h5
      split at h5
      · exact computeIndentLevel_zero (refOffsetAt_line text range.start.line) h5
      · cases h5; rfl
    subst hl
    cases h7
    obtain ⟨roots, h8, h9⟩ := htmlBeautify_laid h6
    have e0 : indentResult o 0 (range.start.character = 0) result = result := rfl
    rw [e0]
    have ht := trimLeftStr_trimmed value
    rw [show value = bytesIn text (startOffset text (refOffsetAt text r.start.line r.start.character))
      (endOffset text (refOffsetAt text r.stop.line r.stop.character)) from hv] at ht h6 h8 h9
    exact .inr ⟨_, roots, ht, h8, h9, h6⟩

/-- **C55 fails**: the second line of `<a></a>`, ` <b></b>` is formatted without its indentation, and
the edit starts behind its end. -/
theorem C55_fails (u : Uni) (cs : Bool) :
    format u cs [b!"br"] .default (.ref b!"<a></a>\n <b></b>") (some ⟨⟨1, 1⟩, ⟨1, 8⟩⟩) =
      .ok [⟨⟨⟨2, 0⟩, ⟨1, 8⟩⟩, b!"<b></b>"⟩] := by
  cases cs <;> krfl

example : format exUni false [b!"br"] .default (.ref b!"<a></a>\nx  <b>\n</b> ") (some ⟨⟨1, 3⟩, ⟨2, 4⟩⟩) =
    .ok [⟨⟨⟨1, 2⟩, ⟨2, 5⟩⟩, b!"<b>\n</b>"⟩] := by krfl

example : format exUni false [b!"br"] .default (.ref b!"<a></a>\n<a  b>") (some ⟨⟨1, 3⟩, ⟨1, 5⟩⟩) =
    .ok [⟨⟨⟨1, 3⟩, ⟨1, 5⟩⟩, b!" b"⟩] := by krfl

/-! ### When formatting a range returns -/

theorem indentChars_ok (tab fuel : Nat) (s : Str) (h : fuel ≤ s.length) : ∃ n, indentChars tab fuel s = .ok n := by
  induction fuel generalizing s with
  | zero => exact ⟨0, rfl⟩
  | succ fuel ih =>
    cases s with
    | nil => simp at h
    | cons b s =>
      obtain ⟨n, hn⟩ := ih s (by simpa using h)
      unfold indentChars
      rw [hn]
      split
      · exact ⟨_, rfl⟩
      · split <;> exact ⟨_, rfl⟩

theorem computeIndentLevel_iff (content : Str) (i tab : Nat) :
    (∃ n, computeIndentLevel content i tab = .ok n) ↔ i ≠ 0 ∧ tab ≠ 0 := by
  unfold computeIndentLevel
  constructor
  · rintro ⟨n, h⟩
    obtain ⟨k, hk, h⟩ := bind_ok h
    obtain ⟨m, hm, h⟩ := bind_ok h
    refine ⟨by have := (subU_ok hk).1; omega, fun h0 => ?_⟩
    rw [if_pos h0] at h
    cases h
  · rintro ⟨h1, h2⟩
    obtain ⟨n, hn⟩ := indentChars_ok tab (content.length - i) (content.drop (i - 1)) (by simp; omega)
    have hs : subU i 1 = .ok (i - 1) := by unfold subU; rw [if_pos (by omega)]
    refine ⟨n / tab, ?_⟩
    simp only [hs, bind, Except.bind, hn]
    rw [if_neg h2]

theorem trimmed_unique {s t t' : Str} (ha : isAscii s) (h : Trimmed s t) (h' : Trimmed s t') : t = t' := by
  have key : ∀ (w a r : Str), isAscii (w ++ a ++ r) → Blank (w ++ a) →
      (∀ c, (charsOf (a ++ r)).head? = some c → isBlankChar c = false) → a = [] := by
    intro w a r ha hb hc
    cases a with
    | nil => rfl
    | cons b a =>
      have hlt : ∀ x ∈ w ++ b :: a, x < 192 := fun x hx => by
        have := ha x (by rw [List.mem_append]; exact .inl hx); omega
      have hw := charsOf_ascii hlt []
      rw [List.append_nil] at hw
      have h1 : isBlankChar [b] = true := hb [b] (by rw [hw]; simp)
      have h2 := charsOf_ascii (w := b :: a) (fun x hx => hlt x (by rw [List.mem_append]; exact .inr hx)) r
      have := hc [b] (by rw [h2]; rfl)
      rw [h1] at this
      cases this
  obtain ⟨w, rfl, hb, hc⟩ := h
  obtain ⟨w', he, hb', hc'⟩ := h'
  rcases List.append_eq_append_iff.1 he with ⟨a, h1, h2⟩ | ⟨a, h1, h2⟩
  · subst h1 h2
    have := key w a t' (by rwa [List.append_assoc]) hb' hc
    rw [this, List.nil_append]
  · subst h1 h2
    have := key w' a t ha hb hc'
    rw [this, List.nil_append]

/-- **C36.** When formatting a range of an ASCII document returns: its start, moved over blanks, is not the
start of the document, and either it is inside a tag, or the line of the edit does not start the
document, the tab size is not 0, and every element that is shown has a name. -/
theorem C36_range_returns_iff (u : Uni) (cs : Bool) (void : List Str) (o : FormatOptions) (d : TextDoc) (r : Range)
    (ha : isAscii d.text) :
    ∃ s t, SelectionStart d.text (d.offsetAt r.start) s ∧ SelectionEnd d.text (d.offsetAt r.stop) t ∧
      (s ≤ t → t ≤ d.text.length →
        ((∃ es, format u cs void o d (some r) = .ok es) ↔ s ≠ 0 ∧
          (insideTag (d.text.take s) = true ∨
            (d.offsetAt ⟨(if d.text[s - 1]? = some 10 then (d.posAt s).line + 1 else (d.posAt s).line), 0⟩ ≠ 0 ∧
              o.tabSize ≠ 0 ∧ ∃ x roots, Trimmed (bytesIn d.text s t) x ∧ parse u cs void x = .ok roots ∧
              ∀ n, Shown roots n → n.tag ≠ none)))) := by
  refine ⟨_, _, startOffset_spec _ _, endOffset_spec _ _, ?_⟩
  intro hst htl
  show (∃ es, formatRange u cs void o d r = .ok es) ↔ _
  unfold formatRange
  dsimp only
  generalize startOffset d.text (d.offsetAt r.start) = s at *
  generalize endOffset d.text (d.offsetAt r.stop) = t at *
  have hs1 : sliceStr d.text 0 s = .ok (d.text.take s) := by
    rw [sliceStr_eq (by omega) (isAscii_boundary ha (by omega)) (isAscii_boundary ha (by omega))]; rfl
  have hs2 : sliceStr d.text s t = .ok (bytesIn d.text s t) :=
    sliceStr_eq hst (isAscii_boundary ha (by omega)) (isAscii_boundary ha (by omega))
  have hab : isAscii (bytesIn d.text s t) := fun b hb => ha b (by
    unfold bytesIn at hb
    exact List.mem_of_mem_take (List.mem_of_mem_drop hb))
  have hax : isAscii (trimLeftStr (bytesIn d.text s t)) := isAscii_trim hab
  obtain ⟨roots, hr⟩ := C11_ascii_never_panics u cs void _ hax
  have hiff := htmlBeautify_iff (o := o) (asciiNext_of_ascii hax) hr
  by_cases h0 : s = 0
  · subst h0
    simp [editRange, subU, bind, Except.bind]
  · have hcond : (sliceStr d.text (s - 1) s).toOption = some [10] ↔ d.text[s - 1]? = some 10 := by
      rw [sliceStr_eq (by omega) (isAscii_boundary ha (by omega)) (isAscii_boundary ha (by omega))]
      have e1 := bytesIn_eq_take d.text (s - 1) 1
      rw [show s - 1 + 1 = s by omega] at e1
      rw [e1]
      cases hd : d.text.drop (s - 1) with
      | nil => 
        have := congrArg (fun l => l.length) hd
        simp at this
        omega
      | cons b l =>
        have := congrArg (fun l => l[0]?) hd
        simp at this
        rw [this]
        simp [Except.toOption]
    have hed : ∃ range, editRange d s t = .ok range ∧
        range.start.line = (if d.text[s - 1]? = some 10 then (d.posAt s).line + 1 else (d.posAt s).line) := by
      unfold editRange
      have hs : subU s 1 = .ok (s - 1) := by unfold subU; rw [if_pos (by omega)]
      simp only [hs, bind, Except.bind]
      by_cases hc : d.text[s - 1]? = some 10
      · rw [if_pos (hcond.2 hc), if_pos hc]; exact ⟨_, rfl, rfl⟩
      · rw [if_neg (fun x => hc (hcond.1 x)), if_neg hc]; exact ⟨_, rfl, rfl⟩
    obtain ⟨range, hed, hline⟩ := hed
    have hlev := computeIndentLevel_iff d.text (d.offsetAt ⟨range.start.line, 0⟩) o.tabSize
    have hlv : initialLevel o d s range = computeIndentLevel d.text (d.offsetAt ⟨range.start.line, 0⟩) o.tabSize := by
      unfold initialLevel; rw [if_pos h0]
    simp only [hed, hs1, hs2, bind, Except.bind, hlv]
    rw [← hline]
    cases hi : insideTag (d.text.take s) with
    | true => simp [h0]
    | false =>
      have hx : (∃ x roots, Trimmed (bytesIn d.text s t) x ∧ parse u cs void x = .ok roots ∧
          ∀ n, Shown roots n → n.tag ≠ none) ↔
          ∃ y, htmlBeautify u cs void o (trimLeftStr (bytesIn d.text s t)) = .ok y := by
        rw [hiff]
        constructor
        · rintro ⟨x, roots', hx, hp, hn⟩
          have : x = trimLeftStr (bytesIn d.text s t) := trimmed_unique hab hx (trimLeftStr_trimmed _)
          subst this
          rw [hr] at hp
          cases hp
          exact hn
        · exact fun h => ⟨_, _, trimLeftStr_trimmed _, hr, h⟩
      rw [hx, ← and_assoc, ← hlev]
      constructor
      · rintro ⟨es, h⟩
        obtain ⟨l, hl, h⟩ := bind_ok (show Except.bind _ _ = _ from h)
        obtain ⟨y, hy, h⟩ := bind_ok (show Except.bind _ _ = _ from h)
        exact ⟨h0, .inr ⟨⟨l, hl⟩, ⟨y, hy⟩⟩⟩
      · rintro ⟨_, h | ⟨⟨l, hl⟩, ⟨y, hy⟩⟩⟩
        · cases h
        · simp [hl, hy]

theorem selectionStart_boundary {text : Str} {i s : Nat} (h : SelectionStart text i s) (hb : isBoundary text i = true) :
    isBoundary text s = true := by
  rcases Nat.lt_or_eq_of_le h.1 with h1 | h1
  · rcases h.2.1 s (Nat.le_refl _) h1 with h2 | h2 <;> exact isBoundary_of_get h2 (by decide)
  · rw [h1]; exact hb

theorem selectionEnd_boundary {text : Str} {i t : Nat} (h : SelectionEnd text i t) (hb : isBoundary text i = true) :
    isBoundary text t = true := by
  rcases h.2.2 with h1 | h1 | h1
  · rw [h1]; exact isBoundary_length _
  · exact isBoundary_of_get h1 (by decide)
  · rw [h1]; exact hb

/-- **C36.** When formatting a range of a UTF-8 document returns: its start `s`, moved over blanks, is not the start of the
document and not behind the end `t`; and either `s` is inside a tag, or the line of the edit does not start the document, the
tab size is not 0, the text between (without white space at its start) can be parsed, and every element of it that is shown has
a name. -/
theorem C36_range_returns_iff_utf8 (u : Uni) (cs : Bool) (void : List Str) (o : FormatOptions) (d : TextDoc) (r : Range)
    (cps : List Nat) (hu : Utf8 cps d.text) (hd : Lawful d) :
    ∃ s t x, SelectionStart d.text (d.offsetAt r.start) s ∧ SelectionEnd d.text (d.offsetAt r.stop) t ∧
      Trimmed (bytesIn d.text s t) x ∧
      ((∃ es, format u cs void o d (some r) = .ok es) ↔ s ≠ 0 ∧ s ≤ t ∧
        (insideTag (d.text.take s) = true ∨
          (d.offsetAt ⟨(if d.text[s - 1]? = some 10 then (d.posAt s).line + 1 else (d.posAt s).line), 0⟩ ≠ 0 ∧
            o.tabSize ≠ 0 ∧ ∃ roots, parse u cs void x = .ok roots ∧ ∀ n, Shown roots n → n.tag ≠ none))) := by
  have hS := startOffset_spec d.text (d.offsetAt r.start)
  have hT := endOffset_spec d.text (d.offsetAt r.stop)
  refine ⟨_, _, _, hS, hT, trimLeftStr_trimmed _, ?_⟩
  have bs := selectionStart_boundary hS (hd.inRange _).2
  have bt := selectionEnd_boundary hT (hd.inRange _).2
  clear hS hT
  show (∃ es, formatRange u cs void o d r = .ok es) ↔ _
  unfold formatRange
  dsimp only
  generalize startOffset d.text (d.offsetAt r.start) = s at *
  generalize endOffset d.text (d.offsetAt r.stop) = t at *
  have hs1 : sliceStr d.text 0 s = .ok (d.text.take s) := by
    rw [sliceStr_eq (Nat.zero_le _) (by obtain ⟨h1, h2⟩ := id hu; rw [h2]; exact utf8_start h1) bs]; rfl
  by_cases h0 : s = 0
  · subst h0
    simp [editRange, subU, bind, Except.bind]
  by_cases hst : s ≤ t
  · have hs2 : sliceStr d.text s t = .ok (bytesIn d.text s t) := sliceStr_eq hst bs bt
    have hcond : (sliceStr d.text (s - 1) s).toOption = some [10] ↔ d.text[s - 1]? = some 10 := by
      have hsl := isBoundary_le bs
      have e1 := bytesIn_eq_take d.text (s - 1) 1
      rw [show s - 1 + 1 = s by omega] at e1
      have e2 : bytesIn d.text (s - 1) s = [10] ↔ d.text[s - 1]? = some 10 := by
        rw [e1]
        cases hd : d.text.drop (s - 1) with
        | nil =>
          have := congrArg (fun l => l.length) hd
          simp at this
          omega
        | cons b l =>
          have := congrArg (fun l => l[0]?) hd
          simp at this
          rw [this]
          simp
      constructor
      · intro hx
        cases hq : sliceStr d.text (s - 1) s with
        | error e => rw [hq] at hx; cases hx
        | ok v =>
          rw [hq] at hx
          cases hx
          exact e2.1 (sliceStr_ok hq).2.2.2.2.symm
      · intro hx
        rw [sliceStr_eq (by omega) (isBoundary_of_get hx (by decide)) bs, e2.2 hx]
        rfl
    have hed : ∃ range, editRange d s t = .ok range ∧
        range.start.line = (if d.text[s - 1]? = some 10 then (d.posAt s).line + 1 else (d.posAt s).line) := by
      unfold editRange
      have hs : subU s 1 = .ok (s - 1) := by unfold subU; rw [if_pos (by omega)]
      simp only [hs, bind, Except.bind]
      by_cases hc : d.text[s - 1]? = some 10
      · rw [if_pos (hcond.2 hc), if_pos hc]; exact ⟨_, rfl, rfl⟩
      · rw [if_neg (fun x => hc (hcond.1 x)), if_neg hc]; exact ⟨_, rfl, rfl⟩
    obtain ⟨range, hed, hline⟩ := hed
    have hlev := computeIndentLevel_iff d.text (d.offsetAt ⟨range.start.line, 0⟩) o.tabSize
    have hlv : initialLevel o d s range = computeIndentLevel d.text (d.offsetAt ⟨range.start.line, 0⟩) o.tabSize := by
      unfold initialLevel; rw [if_pos h0]
    simp only [hed, hs1, hs2, bind, Except.bind, hlv]
    rw [← hline]
    cases hi : insideTag (d.text.take s) with
    | true => simp [h0, hst]
    | false =>
      obtain ⟨cps', hu', _⟩ := utf8_sub hu bs bt hst
      have hx : (∃ roots, parse u cs void (trimLeftStr (bytesIn d.text s t)) = .ok roots ∧
          ∀ n, Shown roots n → n.tag ≠ none) ↔
          ∃ y, htmlBeautify u cs void o (trimLeftStr (bytesIn d.text s t)) = .ok y := by
        constructor
        · rintro ⟨roots, hp, hn⟩
          exact (htmlBeautify_iff (o := o) (asciiNext_trim (asciiNext_of_utf8 hu')) hp).2 hn
        · rintro ⟨y, hy⟩
          obtain ⟨roots, hp, _⟩ := bind_ok (show Except.bind _ _ = _ from hy)
          exact ⟨roots, hp, (htmlBeautify_iff (o := o) (asciiNext_trim (asciiNext_of_utf8 hu')) hp).1 ⟨y, hy⟩⟩
      rw [hx, ← and_assoc (c := ∃ y, _), ← hlev]
      constructor
      · rintro ⟨es, h⟩
        obtain ⟨l, hl, h⟩ := bind_ok (show Except.bind _ _ = _ from h)
        obtain ⟨y, hy, h⟩ := bind_ok (show Except.bind _ _ = _ from h)
        exact ⟨h0, hst, .inr ⟨⟨l, hl⟩, ⟨y, hy⟩⟩⟩
      · rintro ⟨_, _, h | ⟨⟨l, hl⟩, ⟨y, hy⟩⟩⟩
        · cases h
        · simp [hl, hy]
  · constructor
    · rintro ⟨es, h⟩
      obtain ⟨range, _, h⟩ := bind_ok (show Except.bind _ _ = _ from h)
      obtain ⟨f, _, h⟩ := bind_ok (show Except.bind _ _ = _ from h)
      obtain ⟨v, hv, _⟩ := bind_ok (show Except.bind _ _ = _ from h)
      exact absurd (sliceStr_ok hv).1 hst
    · exact fun h => absurd h.2.1 hst

/-- A range of a text that is not ASCII for which formatting returns. -/
example : returns (format exUni false [] .default (.ref b!"x\n\u00e9<b> \u00fc</b>") (some ⟨⟨1, 0⟩, ⟨1, 11⟩⟩)) (fun es =>
    es.length = 1) = true := by decide +kernel

/-- **C36 fails** for a selection that ends between `<` and the name of a tag. -/
theorem C36_fails_for_cut_tag (u : Uni) (cs : Bool) :
    format u cs [b!"br"] .default (.ref b!"<a></a>\nx<b></b>") (some ⟨⟨1, 1⟩, ⟨1, 2⟩⟩) = .error .unwrap := by
  cases cs <;> krfl

end Html.Props
