import Verif.Proof.Reprint

/-! # Formatting printed documents -/

namespace Html
open Spec

/-- `name` or `name=value`. -/
def attrBody (a : AttrText) : Str :=
  a.name ++ match a.value with
    | none => []
    | some w => b!"=" ++ w

theorem attr_print (a : AttrText) : a.print = a.gap ++ attrBody a := by
  unfold AttrText.print attrBody
  cases a.value <;> simp

/-- A line of this length is too long. -/
def tooLong (o : FormatOptions) (n : Nat) : Bool := o.wrapLineLength.any (fun w => w < n)

theorem tooLong_iff (o : FormatOptions) (n : Nat) : tooLong o n = true ↔ TooLong o n := by
  unfold tooLong TooLong
  cases o.wrapLineLength <;> simp

theorem tooLong_le {o : FormatOptions} {m n : Nat} (h : m ≤ n) (hm : tooLong o m = true) : tooLong o n = true := by
  rw [tooLong_iff] at hm ⊢
  obtain ⟨w, h1, h2⟩ := hm
  exact ⟨w, h1, by omega⟩

/-- A start tag on one line. -/
def tagLine (o : FormatOptions) (k : Nat) (single : Bool) (t : TagText) : Str :=
  indentation o k ++ b!"<" ++ t.name ++ t.attrs.flatMap (fun a => b!" " ++ attrBody a) ++
    if single then b!" />" else b!">"

/-- The start tag takes several lines. -/
def tagWraps (o : FormatOptions) (k : Nat) (single : Bool) (t : TagText) : Bool := tooLong o (tagLine o k single t).length

/-- A formatted start tag. -/
def tagFormat (o : FormatOptions) (k : Nat) (single : Bool) (t : TagText) : TagText :=
  ⟨t.name, t.attrs.map (fun a => ⟨if tagWraps o k single t then 10 :: attrIndentation o k else [32], a.name, a.value⟩),
    if tagWraps o k single t then 10 :: indentation o k else if single then [32] else []⟩

/-- The element takes several lines. -/
def elWraps (o : FormatOptions) (k : Nat) (t : TagText) (content : Str) : Bool :=
  decide (10 ∈ content) || tooLong o ((tagLine o k false t).length + content.length + t.name.length + 4)

/-- The line break in front of an end tag. -/
def closeText (o : FormatOptions) (k : Nat) (wraps : Bool) : Str := if wraps then 10 :: indentation o k else []

/-- The formatted text of an element without children. -/
def leafFormat (o : FormatOptions) (k : Nat) (wraps : Bool) (t : Str) : Str :=
  (if wraps then leafBody o (k + 1) t else beautifyText o (k + 1) t) ++ closeText o k wraps

mutual
/-- A formatted element. -/
def El.format (o : FormatOptions) (k : Nat) : El → El
  | .elem tag kids _ =>
    .elem (tagFormat o k false tag)
      (if kids.isLeaf then .last (leafFormat o k (elWraps o k tag kids.print) kids.print)
        else kids.format o (k + 1) (closeText o k (elWraps o k tag kids.print))) []
  | .single tag _ => .single (tagFormat o k true tag) true
/-- Formatted children of an element. -/
def Flow.format (o : FormatOptions) (k : Nat) (close : Str) : Flow → Flow
  | .last t => .last (beautifyText o k t ++ close)
  | .cons g e r => .cons (gapText o k g) (e.format o k) (r.format o k close)
end

/-! ### Tags -/

theorem attrs_byOrder (t : TagText) (i : Nat) (n : Node) (hn : n.attributes = t.nodes i) :
    n.attributesByOrder = t.nodes i := by
  unfold Node.attributesByOrder
  rw [hn]
  exact attrNodes_order _ _

theorem attrNodes_flat (f : Str → Str) (i : Nat) (attrs : List AttrText) :
    (attrNodes i attrs).flatMap (fun x => f (attrText x)) = attrs.flatMap (fun a => f (attrBody a)) := by
  induction attrs generalizing i with
  | nil => rfl
  | cons a l ih =>
    rw [attrNodes, List.flatMap_cons, List.flatMap_cons, ih]
    congr 2
    unfold attrText attrBody
    cases a.value <;> simp

theorem oneLine_tag (o : FormatOptions) (k : Nat) (single : Bool) (t : TagText) (i : Nat) (n : Node)
    (hn : n.attributes = t.nodes i) (he : n.endTagStart = none ↔ single = true) :
    oneLine o k n t.name = tagLine o k single t := by
  unfold oneLine tagLine
  rw [attrs_byOrder t i n hn]
  unfold TagText.nodes
  rw [attrNodes_flat (fun x => b!" " ++ x)]
  congr 1
  cases single
  · rw [if_neg (by simp [he])]; rfl
  · rw [if_pos (by simp [he])]; rfl

theorem printAttrs_flat (sep : Str) (attrs : List AttrText) :
    printAttrs (attrs.map (fun a => ⟨sep, a.name, a.value⟩)) = attrs.flatMap (fun a => sep ++ attrBody a) := by
  induction attrs with
  | nil => rfl
  | cons a l ih =>
    rw [List.map_cons, printAttrs, ih, List.flatMap_cons, attr_print]
    rfl

theorem wrapsTag_iff (o : FormatOptions) (k : Nat) (single : Bool) (t : TagText) (i : Nat) (n : Node)
    (hn : n.attributes = t.nodes i) (he : n.endTagStart = none ↔ single = true) :
    WrapsTag o k n t.name ↔ tagWraps o k single t = true := by
  unfold WrapsTag tagWraps
  rw [oneLine_tag o k single t i n hn he, tooLong_iff]

theorem startText_tag (o : FormatOptions) (k : Nat) (single : Bool) (t : TagText) (i : Nat) (n : Node)
    (hn : n.attributes = t.nodes i) (he : n.endTagStart = none ↔ single = true) :
    startText o k n t.name = indentation o k ++ ((tagFormat o k single t).print ++ if single then b!"/>" else b!">") := by
  have hw := wrapsTag_iff o k single t i n hn he
  unfold startText TagText.print tagFormat
  dsimp only
  rw [printAttrs_flat]
  by_cases h : tagWraps o k single t = true
  · rw [if_pos (hw.2 h)]
    simp only [h, if_true]
    unfold manyLines
    rw [attrs_byOrder t i n hn]
    unfold TagText.nodes
    rw [attrNodes_flat (fun x => b!"\n" ++ attrIndentation o k ++ x)]
    cases single
    · rw [if_neg (by simp [he])]; simp
    · rw [if_pos (by simp [he])]; simp
  · rw [if_neg (fun g => h (hw.1 g))]
    have h' : tagWraps o k single t = false := by simpa using h
    rw [oneLine_tag o k single t i n hn he]
    simp only [h', Bool.false_eq_true, if_false]
    unfold tagLine
    cases single <;> simp

theorem tagFormat_line (o : FormatOptions) (k : Nat) (single : Bool) (t : TagText) (j : Nat) (s : Bool) :
    tagLine o j s (tagFormat o k single t) = tagLine o j s t := by
  unfold tagLine tagFormat
  dsimp only
  rw [List.flatMap_map]
  rfl

theorem tagFormat_wraps (o : FormatOptions) (k : Nat) (single : Bool) (t : TagText) :
    tagWraps o k single (tagFormat o k single t) = tagWraps o k single t := by
  unfold tagWraps
  rw [tagFormat_line]

theorem tagFormat_again (o : FormatOptions) (k : Nat) (single : Bool) (t : TagText) :
    tagFormat o k single (tagFormat o k single t) = tagFormat o k single t := by
  rw [tagFormat, tagFormat_wraps]
  unfold tagFormat
  simp

theorem tagWraps_elWraps {o : FormatOptions} {k : Nat} {t : TagText} (h : tagWraps o k false t = true) (content : Str) :
    elWraps o k t content = true := by
  unfold elWraps
  rw [tooLong_le (by omega) h]
  simp

/-! ### One pass -/

theorem wraps_iff (o : FormatOptions) (k : Nat) (t : TagText) (content : Str) (i : Nat) (n : Node)
    (hn : n.attributes = t.nodes i) (he : n.endTagStart ≠ none) :
    Wraps o k n t.name content ↔ elWraps o k t content = true := by
  unfold Wraps elWraps
  rw [oneLine_tag o k false t i n hn (by simp [he]), ← tooLong_iff]
  have : (tagLine o k false t).length + content.length + (b!"</" ++ t.name ++ b!">").length + 1 =
    (tagLine o k false t).length + content.length + t.name.length + 4 := by simp; omega
  rw [this]
  simp

theorem endText_tag (o : FormatOptions) (k : Nat) (t : TagText) (content : Str) (i : Nat) (n : Node)
    (hn : n.attributes = t.nodes i) (he : n.endTagStart ≠ none) :
    endText o k n t.name content = closeText o k (elWraps o k t content) ++ (b!"</" ++ t.name ++ b!">") := by
  unfold endText closeText
  have h1 := wraps_iff o k t content i n hn he
  have h2 := wrapsTag_iff o k false t i n hn (by simp [he])
  by_cases h : elWraps o k t content = true
  · rw [if_pos (.inr (h1.2 h)), if_pos h]
    simp
  · rw [if_neg, if_neg h]
    · simp
    · rintro (g | g)
      · exact h (tagWraps_elWraps (h2.1 g) content)
      · exact h (h1.1 g)

theorem leaf_tag {o : FormatOptions} {k : Nat} {t : TagText} {content out : Str} {i : Nat} {n : Node} {src : Str} {s e : Nat} {w : Bool}
    (hn : n.attributes = t.nodes i) (he : n.endTagStart ≠ none) (hb : bytesIn src s e = content)
    (hw : w = true ↔ Wraps o k n t.name content) (h : textOnly o src k w s e = .ok out) :
    out = if elWraps o k t content then leafBody o (k + 1) content else beautifyText o (k + 1) content := by
  rw [wraps_iff o k t content i n hn he] at hw
  have hw : w = elWraps o k t content := by
    cases w <;> cases h : elWraps o k t content <;> simp_all
  unfold textOnly at h
  split at h
  · rename_i hse
    cases h
    have : content = [] := by rw [← hb, hse]; unfold bytesIn; simp
    subst this
    split <;> rfl
  · obtain ⟨x, hx, h⟩ := bind_ok h
    have hx' : x = content := by rw [← hb]; exact (sliceStr_ok hx).2.2.2.2
    subst hx'
    cases h
    rw [← hw]
    cases w
    · simp
    · simp only [true_and, if_true]
      unfold leafBody
      by_cases hne : words x = []
      · rw [if_neg (by rw [trimC_pos, words_beautify]; simpa using hne), if_neg (by simpa using hne)]
      · rw [if_pos (by rw [trimC_pos, words_beautify]; exact hne), if_pos hne]
        simp [indentation_eq]

theorem El.start_node (i : Nat) (e : El) : (e.node i).start = i ∧ (e.node i).stop = i + e.print.length := by
  cases e with
  | elem tag kids gap => simp [El.node, El.print]; omega
  | single tag slash => cases slash <;> simp [El.node, El.print] <;> omega

mutual
theorem El.beautify {o : FormatOptions} {src : Str} {k i : Nat} (e : El) {t : Str} (hat : At src i e.print)
    (h : (e.node i).beautify o src k = .ok t) : t = indentation o k ++ (e.format o k).print := by
  match e with
  | .single tag slash =>
    unfold El.node Node.beautify at h
    simp only [unwrap, bind, Except.bind] at h
    cases h
    rw [startText_self _ _ _ _ rfl, startText_tag o k true tag i _ rfl (by simp)]
    simp [El.format, El.print]
  | .elem tag kids gap =>
    unfold El.node Node.beautify at h
    simp only [unwrap, bind, Except.bind] at h
    obtain ⟨x, hk, h⟩ := bind_ok h
    obtain ⟨wrap, hw, h⟩ := bind_ok h
    obtain ⟨text, ht, h⟩ := bind_ok h
    cases h
    have hwi := nodeWrap_iff hw
    simp only [El.print, List.append_assoc] at hat
    have hb := at_left (at_right (at_right hat))
    have hb' := bytesIn_of_at hb
    simp only [List.length_cons, List.length_nil, Nat.zero_add] at hb' hb
    rw [hb'] at hwi
    have e1 := startText_open o k (El.node i (.elem tag kids gap)) tag.name (by simp [El.node])
    have e2 := endText_eq hwi
    have e3 := startText_tag o k false tag i (El.node i (.elem tag kids gap)) rfl (by simp [El.node])
    have e4 := endText_tag o k tag kids.print i (El.node i (.elem tag kids gap)) rfl (by simp [El.node])
    rw [e3] at e1
    simp only [El.node] at e1 e4
    rw [e4] at e2
    simp only [List.append_assoc] at e1 e2 ⊢
    rw [e2]
    have e1' := congrArg (· ++ (x ++ (text ++ (closeText o k (elWraps o k tag kids.print) ++ (b!"</" ++ (tag.name ++ b!">")))))) e1
    simp only [List.append_assoc] at e1'
    refine e1'.trans ?_
    simp only [El.format, El.print]
    cases hl : kids.isLeaf with
    | true =>
      cases kids with
      | cons g e r => cases hl
      | last s =>
        simp only [Flow.nodes, Node.beautifyKids, Except.ok.injEq] at hk
        subst hk
        simp only [Flow.nodes, leafText, List.isEmpty_nil, if_true] at ht
        have := leaf_tag (i := i) rfl (by simp) hb' hwi ht
        rw [this]
        simp [Flow.print, leafFormat, tagFormat]
    | false =>
      cases kids with
      | last s => cases hl
      | cons g e r =>
        simp only [Flow.nodes, leafText, List.isEmpty_cons] at ht
        cases ht
        have := Flow.beautifyKids (.cons g e r) rfl hb (closeText o k (elWraps o k tag (Flow.cons g e r).print)) hk
        rw [List.nil_append]
        simp only [Bool.false_eq_true, if_false, ← this]
        simp [tagFormat]
theorem Flow.beautifyKids {o : FormatOptions} {src : Str} {k i : Nat} (f : Flow) {t : Str} (hl : f.isLeaf = false)
    (hat : At src i f.print) (close : Str)
    (h : Node.beautifyKids o src k i (i + f.print.length) (f.nodes i) = .ok t) :
    t ++ close = (f.format o k close).print := by
  match f with
  | .last s => cases hl
  | .cons g e (.last s) =>
    simp only [Flow.nodes, Node.beautifyKids] at h
    obtain ⟨a, h1, h⟩ := bind_ok h
    obtain ⟨x, h2, h⟩ := bind_ok h
    obtain ⟨b, h3, h⟩ := bind_ok h
    cases h
    have e1 := (sliceStr_ok h1).2.2.2.2
    have e3 := (sliceStr_ok h3).2.2.2.2
    simp only [Flow.print] at hat e3
    rw [(El.start_node _ e).1, bytesIn_of_at (at_left hat)] at e1
    have he := El.beautify e (at_left (at_right hat)) h2
    have hs := bytesIn_of_at (at_right (at_right hat))
    rw [(El.start_node _ e).2] at e3
    simp only [List.length_append] at e3
    rw [show i + (g.length + (e.print.length + s.length)) = i + g.length + e.print.length + s.length by omega, hs] at e3
    subst e1 e3 he
    simp [Flow.format, Flow.print, gapText, indentation_eq]
  | .cons g e (.cons g' e' r) =>
    have hn : ∃ d l, Flow.nodes (i + g.length + e.print.length) (.cons g' e' r) = d :: l := ⟨_, _, rfl⟩
    obtain ⟨d, l, hn⟩ := hn
    rw [Flow.nodes, hn, Node.beautifyKids, ← hn] at h
    obtain ⟨a, h1, h⟩ := bind_ok h
    obtain ⟨x, h2, h⟩ := bind_ok h
    obtain ⟨b, h3, h⟩ := bind_ok h
    cases h
    have e1 := (sliceStr_ok h1).2.2.2.2
    rw [Flow.print] at hat h3
    rw [(El.start_node _ e).1, bytesIn_of_at (at_left hat)] at e1
    have he := El.beautify e (at_left (at_right hat)) h2
    rw [(El.start_node _ e).2] at h3
    simp only [List.length_append] at h3
    rw [show i + (g.length + (e.print.length + (Flow.cons g' e' r).print.length)) =
      i + g.length + e.print.length + (Flow.cons g' e' r).print.length by omega] at h3
    have hr := Flow.beautifyKids (.cons g' e' r) rfl (at_right (at_right hat)) close h3
    subst e1 he
    rw [Flow.format, Flow.print, ← hr]
    simp [gapText, indentation_eq]
end

end Html
