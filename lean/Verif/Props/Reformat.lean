import Verif.Proof.Encoded
import Verif.Props.Format

/-! # C38, C65: formatting a formatted document -/

namespace Html.Props
open Html Spec

theorem formatted_iff {u : Uni} {cs : Bool} {void : List Str} {o : FormatOptions} {s t : Str} :
    Formatted u cs void o s t ↔ htmlBeautify u cs void o (trimLeftStr s) = .ok t := by
  constructor
  · rintro ⟨d, e, rfl, h, rfl⟩
    obtain ⟨result, h1, h2⟩ := format_none_ok h
    cases h2
    exact h1
  · intro h
    refine ⟨.ref s, ⟨⟨⟨0, 0⟩, (TextDoc.ref s).posAt s.length⟩, t⟩, rfl, ?_, rfl⟩
    have : (TextDoc.ref s).text = s := rfl
    simp only [format, this, h, bind, Except.bind]

theorem formatted_flow {u : Uni} {cs : Bool} {void : List Str} {o : FormatOptions} {f : Flow} {t : Str}
    (hl : f.Legal void) (h : Formatted u cs void o f.print t) : t = (f.roots o).print :=
  Flow.formatText hl (formatted_iff.1 h)

/-- **C38.** Formatting a printed document again changes nothing if its elements are settled: an element with
children takes several lines, and the texts in front of, between and behind the children are blank or have a
line break. -/
theorem C38_idempotent (u : Uni) (cs : Bool) (void : List Str) (o : FormatOptions) (items : List Item)
    (hl : AllLegal void items) (roots : List Node) (hp : parse u cs void (printAll items) = .ok roots)
    (hs : ∀ n ∈ roots, NodeSettled o (printAll items) 0 n) (a b : Str)
    (h1 : Formatted u cs void o (printAll items) a) (h2 : Formatted u cs void o a b) : b = a := by
  obtain ⟨f, hf, hfp, _⟩ := Flow.ofItems items hl
  rw [← hfp] at hp hs h1
  have hr := Flow.parse hf hp
  subst hr
  have hset := Flow.rootsSettled_of f ⟨[], by simp⟩ hs
  have e1 := formatted_flow hf h1
  rw [e1] at h2 ⊢
  rw [formatted_flow (Flow.roots_legal hf) h2, Flow.roots_again hset]

/-- **C38.** Formatting a printed document settles after three passes: a fourth one changes nothing. -/
theorem C38_settles (u : Uni) (cs : Bool) (void : List Str) (o : FormatOptions) (items : List Item)
    (hl : AllLegal void items) (a b c d : Str)
    (h1 : Formatted u cs void o (printAll items) a) (h2 : Formatted u cs void o a b)
    (h3 : Formatted u cs void o b c) (h4 : Formatted u cs void o c d) : d = c := by
  obtain ⟨f, hf, hfp, _⟩ := Flow.ofItems items hl
  rw [← hfp] at h1
  have l1 := Flow.roots_legal (o := o) hf
  have l2 := Flow.roots_legal (o := o) l1
  have l3 := Flow.roots_legal (o := o) l2
  have e1 := formatted_flow hf h1
  rw [e1] at h2
  have e2 := formatted_flow l1 h2
  rw [e2] at h3
  have e3 := formatted_flow l2 h3
  rw [e3] at h4
  rw [formatted_flow l3 h4, e3, Flow.roots_again (Flow.roots_settled f)]

/-- **C38.** For every document that is UTF-8 all these passes return. -/
theorem C38_utf8_settles (u : Uni) (cs : Bool) (void : List Str) (o : FormatOptions) (items : List Item) (cps : List Nat)
    (hl : AllLegal void items) (hu : Utf8 cps (printAll items)) :
    ∃ a b c, Formatted u cs void o (printAll items) a ∧ Formatted u cs void o a b ∧ Formatted u cs void o b c ∧
      ∀ d : TextDoc, d.text = c → ∃ e, format u cs void o d none = .ok [e] ∧ e.newText = c := by
  obtain ⟨f, hf, hfp, _⟩ := Flow.ofItems items hl
  have ha : Enc f.print := ⟨cps, by rw [hfp]; exact hu⟩
  rw [← hfp]
  have l1 := Flow.roots_legal (o := o) hf
  have l2 := Flow.roots_legal (o := o) l1
  have l3 := Flow.roots_legal (o := o) l2
  have a1 := Flow.roots_enc (o := o) hf ha
  have a2 := Flow.roots_enc (o := o) l1 a1
  have a3 := Flow.roots_enc (o := o) l2 a2
  refine ⟨_, _, _, formatted_iff.2 (Flow.format_ok u cs o hf ha), formatted_iff.2 (Flow.format_ok u cs o l1 a1),
    formatted_iff.2 (Flow.format_ok u cs o l2 a2), fun d hd => ?_⟩
  have := Flow.format_ok u cs o l3 a3
  rw [Flow.roots_again (Flow.roots_settled f), ← hd] at this
  simp only [format, this, bind, Except.bind]
  exact ⟨_, rfl, hd⟩

/-- **C38**, its limits: two passes are not enough. -/
theorem C38_two_passes_fail (u : Uni) (cs : Bool) :
    Formatted u cs [b!"br"] .default b!"<a>x<b></b>y</a>" b!"<a>x\n    <b></b>y</a>" ∧
    Formatted u cs [b!"br"] .default b!"<a>x\n    <b></b>y</a>" b!"<a>\n    x\n    <b></b>y\n</a>" ∧
    Formatted u cs [b!"br"] .default b!"<a>\n    x\n    <b></b>y\n</a>" b!"<a>\n    x\n    <b></b>\n    y\n</a>" := by
  simp only [formatted_iff]
  cases cs <;> exact ⟨by krfl, by krfl, by krfl⟩

/-- **C65.** Formatting a printed document does not change its tree: the formatted text is parsed to elements with the
same names, attributes, values and children, with end tags on the same elements, and with the same words in the
texts between them. -/
theorem C65_tree_preserved (u : Uni) (cs : Bool) (void : List Str) (o : FormatOptions) (items : List Item)
    (hl : AllLegal void items) (a : Str) (h : Formatted u cs void o (printAll items) a)
    (roots roots' : List Node) (h1 : parse u cs void (printAll items) = .ok roots) (h2 : parse u cs void a = .ok roots') :
    shapes roots' = shapes roots ∧ docPieces a roots' = docPieces (printAll items) roots := by
  obtain ⟨f, hf, hfp, _⟩ := Flow.ofItems items hl
  rw [← hfp] at h h1 ⊢
  have e1 := formatted_flow hf h
  subst e1
  have r1 := Flow.parse hf h1
  have r2 := Flow.parse (Flow.roots_legal hf) h2
  subst r1 r2
  rw [Flow.nodes_shape, Flow.nodes_shape, Flow.docPieces _ ⟨[], by simp⟩, Flow.docPieces _ ⟨[], by simp⟩,
    Flow.roots_shapes, Flow.roots_pieces]
  exact ⟨rfl, rfl⟩

/-- **C65.** For every document that is UTF-8 formatting and both parses return, and the formatted text is UTF-8. -/
theorem C65_utf8_tree_preserved (u : Uni) (cs : Bool) (void : List Str) (o : FormatOptions) (items : List Item)
    (cps : List Nat) (hl : AllLegal void items) (hu : Utf8 cps (printAll items)) :
    ∃ a roots roots', Formatted u cs void o (printAll items) a ∧ parse u cs void (printAll items) = .ok roots ∧
      parse u cs void a = .ok roots' ∧ shapes roots' = shapes roots ∧ docPieces a roots' = docPieces (printAll items) roots ∧
      ∃ cps', Utf8 cps' a := by
  obtain ⟨f, hf, hfp, _⟩ := Flow.ofItems items hl
  have ha : Enc f.print := ⟨cps, by rw [hfp]; exact hu⟩
  have h := Flow.format_ok u cs o hf ha
  have h1 := Flow.parse_returns u cs hf ha
  rw [hfp] at h h1
  have he := Flow.roots_enc (o := o) hf ha
  have h2 := Flow.parse_returns u cs (Flow.roots_legal (o := o) hf) he
  have hF := formatted_iff.2 h
  have key := C65_tree_preserved u cs void o items hl _ hF _ _ h1 h2
  exact ⟨_, _, _, hF, h1, h2, key.1, key.2, he⟩

/-- **C65 fails** for elements that are not closed: their content is lost. -/
theorem C65_fails_for_open_elements (u : Uni) (cs : Bool) :
    Formatted u cs [b!"br"] .default b!"<ul><li>x<li>y</ul>" b!"<ul>\n    <li /></ul>" ∧
    (parse u cs [b!"br"] b!"<ul><li>x<li>y</ul>").map shapes =
      .ok [.mk (some b!"ul") [] true [.mk (some b!"li") [] false [.mk (some b!"li") [] false []]]] ∧
    (parse u cs [b!"br"] b!"<ul>\n    <li /></ul>").map shapes =
      .ok [.mk (some b!"ul") [] true [.mk (some b!"li") [] false []]] := by
  rw [formatted_iff]
  cases cs <;> exact ⟨by krfl, by krfl, by krfl⟩

/-- The hypotheses of `C38_settles`, `C38_utf8_settles` and `C65_utf8_tree_preserved` hold for the printed document of
C20. -/
example : AllLegal [b!"br"] exItems ∧ Utf8 (printAll exItems) (printAll exItems) :=
  ⟨exItems_legal, utf8_of_ascii (by decide +kernel)⟩

/-- They hold for `<p type="\u00a0\u00e9">\u00a0</p>\u00e9`, too. -/
example : AllLegal [] [.elem ⟨b!"p", [⟨b!" ", b!"type", some b!"\"\u00a0\u00e9\""⟩], []⟩ [.text b!"\u00a0"] [], .text b!"\u00e9"] ∧
    Utf8 [60, 112, 32, 116, 121, 112, 101, 61, 34, 160, 233, 34, 62, 160, 60, 47, 112, 62, 233]
      (printAll [.elem ⟨b!"p", [⟨b!" ", b!"type", some b!"\"\u00a0\u00e9\""⟩], []⟩ [.text b!"\u00a0"] [], .text b!"\u00e9"]) :=
  exOddItems_legal

/-- An element with a child on a line of its own. -/
def exSettled : List Item :=
  [.elem ⟨b!"p", [], []⟩ [.text b!" x\n", .elem ⟨b!"i", [], []⟩ [.text b!" y  z "] [], .text b!" "] []]

/-- The hypotheses of `C38_idempotent` hold for `<p> x\n<i> y  z </i> </p>`. -/
example : AllLegal [b!"br"] exSettled ∧ ∃ roots, parse exUni false [b!"br"] (printAll exSettled) = .ok roots ∧
    ∀ n ∈ roots, NodeSettled .default (printAll exSettled) 0 n := by
  have hl : AllLegal [b!"br"] exSettled := by
    unfold exSettled
    simp only [AllLegal, Item.Legal]
    exact ⟨⟨exTagLegal (by decide), by decide, by decide,
      .inl ⟨.inl (exName (by decide) (by decide) (by decide) (by decide)), by decide,
      ⟨exTagLegal (by decide), by decide, by decide,
        .inl ⟨.inl (exName (by decide) (by decide) (by decide) (by decide)), by decide, trivial⟩⟩,
      by decide, trivial⟩⟩, trivial⟩
  refine ⟨hl, ?_⟩
  obtain ⟨roots, h⟩ := C11_ascii_never_panics exUni false [b!"br"] (printAll exSettled) (by decide +kernel)
  refine ⟨roots, h, ?_⟩
  rw [parse_print hl h]
  intro n hn
  simp only [exSettled, nodesAll, Item.nodes, List.append_nil, List.nil_append, List.mem_singleton] at hn
  subst hn
  unfold NodeSettled
  intro _ t s e ht hs he _
  cases ht; cases hs; cases he
  refine ⟨.inl (by decide +kernel), ?_⟩
  unfold KidsSettled
  refine ⟨.inl (by decide +kernel), ?_, ?_⟩
  · unfold NodeSettled
    intro _ t s e _ _ _ hc
    exact absurd rfl hc
  · unfold KidsSettled
    exact .inr (by decide +kernel)

example : returns (htmlBeautify exUni false [b!"br"] .default (printAll exSettled)) (fun t =>
    t = b!"<p>\n    x\n    <i>y z</i>\n</p>") = true := by decide +kernel

end Html.Props
