import Verif.Proof.Layout
import Verif.Props.Format

/-!
# How formatted documents are laid out (C56)
-/

namespace Html.Props
open Html Spec

theorem kidsLaid_mem {o : FormatOptions} {src : Str} {k prev stop : Nat} {l : List Node} {out : Str} {n : Node}
    (h : KidsLaid o src k prev stop l out) (hn : n ∈ l) :
    ∃ a x r, out = a ++ b!"\n" ++ x ++ r ∧ NodeLaid o src k n x := by
  induction l generalizing prev out with
  | nil => cases hn
  | cons c l ih =>
    unfold KidsLaid at h
    obtain ⟨a, x, r, rfl, _, h2, h3⟩ := h
    rcases List.mem_cons.1 hn with rfl | hn
    · exact ⟨a, x, r, rfl, h2⟩
    · obtain ⟨a', x', r', rfl, h4⟩ := ih h3 hn
      exact ⟨a ++ b!"\n" ++ x ++ a', x', r', by simp only [List.append_assoc], h4⟩

theorem nodeLaid_child {o : FormatOptions} {src : Str} {k : Nat} {m n : Node} {out : Str}
    (h : NodeLaid o src k m out) (he : m.endTagStart ≠ none) (hn : n ∈ m.children) :
    ∃ a x r, out = a ++ b!"\n" ++ x ++ r ∧ NodeLaid o src (k + 1) n x := by
  match m, h, he, hn with
  | ⟨tag, start, stop, children, closed, ste, some e, attrs⟩, h, he, hn =>
    unfold NodeLaid at h
    obtain ⟨t, _, s, body, _, rfl, _, h⟩ := h
    have hc : children ≠ [] := by rintro rfl; cases hn
    obtain ⟨a, x, r, rfl, hx⟩ := kidsLaid_mem (h hc) hn
    generalize startText o k _ t = y
    generalize endText o k _ t (bytesIn src s e) = z
    exact ⟨y ++ a, x, r ++ z, by simp only [List.append_assoc], hx⟩

theorem rootsLaid_mem {o : FormatOptions} {src : Str} {l : List Node} {out : Str} {n : Node}
    (h : RootsLaid o src l out) (hn : n ∈ l) : ∃ a x r, out = a ++ x ++ r ∧ NodeLaid o src 0 n x := by
  induction l generalizing out with
  | nil => cases hn
  | cons c l ih =>
    obtain ⟨x, r, rfl, h1, h2⟩ := h
    rcases List.mem_cons.1 hn with rfl | hn
    · exact ⟨[], x, r, rfl, h1⟩
    · obtain ⟨a, x', r', rfl, h4⟩ := ih h2 hn
      exact ⟨x ++ a, x', r', by simp only [List.append_assoc], h4⟩

theorem shown_laid {o : FormatOptions} {src : Str} {roots : List Node} {out : Str} {k : Nat} {n : Node}
    (h : RootsLaid o src roots out) (hn : ShownAt roots k n) :
    ∃ a x r, out = a ++ x ++ r ∧ NodeLaid o src k n x ∧ (k ≠ 0 → a.getLast? = some 10) := by
  induction hn with
  | root hm =>
    obtain ⟨a, x, r, h1, h2⟩ := rootsLaid_mem h hm
    exact ⟨a, x, r, h1, h2, fun h => absurd rfl h⟩
  | child _ he hc ih =>
    obtain ⟨a, x, r, rfl, h2, _⟩ := ih
    obtain ⟨a', x', r', rfl, h3⟩ := nodeLaid_child h2 he hc
    exact ⟨a ++ (a' ++ b!"\n"), x', r' ++ r, by simp only [List.append_assoc], h3, fun _ => by simp⟩

theorem htmlBeautify_rootsLaid {u : Uni} {cs : Bool} {void : List Str} {o : FormatOptions} {t out : Str}
    (h : htmlBeautify u cs void o t = .ok out) :
    ∃ roots body, parse u cs void t = .ok roots ∧ RootsLaid o t roots body ∧
      (o.endWithNewline = true ∧ body.getLast? ≠ some 10 → out = body ++ b!"\n") ∧
      (¬ (o.endWithNewline = true ∧ body.getLast? ≠ some 10) → out = body) := by
  obtain ⟨roots, h1, h⟩ := bind_ok h
  obtain ⟨body, h2, h⟩ := bind_ok h
  cases h
  refine ⟨roots, body, h1, beautifyRoots_rootsLaid h2, fun h => ?_, fun h => ?_⟩
  · rw [if_pos ⟨h.2, h.1⟩]
  · rw [if_neg fun g => h ⟨g.2, g.1⟩]

/-- **C56.** The formatted document is laid out as specified in `Verif.Spec.Layout`: every child of an element begins a
line, indented to its depth, start tags take one line if that is not too long and one line for every attribute
otherwise, texts on one line keep single spaces between the words, and the lines of texts on several lines are indented
with no more blank lines between them than wanted. -/
theorem C56_layout (u : Uni) (cs : Bool) (void : List Str) (o : FormatOptions) (d : TextDoc) (e : TextEdit)
    (h : format u cs void o d none = .ok [e]) :
    ∃ t roots body, Trimmed d.text t ∧ parse u cs void t = .ok roots ∧ RootsLaid o t roots body ∧
      (o.endWithNewline = true ∧ body.getLast? ≠ some 10 → e.newText = body ++ b!"\n") ∧
      (¬ (o.endWithNewline = true ∧ body.getLast? ≠ some 10) → e.newText = body) := by
  obtain ⟨result, h1, h2⟩ := format_none_ok h
  cases h2
  obtain ⟨roots, body, h3, h4, h5⟩ := htmlBeautify_rootsLaid h1
  exact ⟨_, roots, body, trimLeftStr_trimmed d.text, h3, h4, h5⟩

/-- **C56.** If a final line break is wanted, there is one. -/
theorem C56_ends_with_newline (u : Uni) (cs : Bool) (void : List Str) (o : FormatOptions) (d : TextDoc) (e : TextEdit)
    (h : format u cs void o d none = .ok [e]) (ho : o.endWithNewline = true) : e.newText.getLast? = some 10 := by
  obtain ⟨t, roots, body, _, _, _, h1, h2⟩ := C56_layout u cs void o d e h
  by_cases hb : body.getLast? = some 10
  · rw [h2 fun g => g.2 hb]; exact hb
  · rw [h1 ⟨ho, hb⟩]; simp

/-- **C56.** Every element that is shown below another one begins a line, indented to its depth, with its start tag:
on one line if that is not too long, with every attribute on a line of its own otherwise. -/
theorem C56_own_line (u : Uni) (cs : Bool) (void : List Str) (o : FormatOptions) (d : TextDoc) (e : TextEdit)
    (h : format u cs void o d none = .ok [e]) :
    ∃ t roots, Trimmed d.text t ∧ parse u cs void t = .ok roots ∧
      ∀ k n, ShownAt roots k n → ∃ tag before after, n.tag = some tag ∧
        (k ≠ 0 → before.getLast? = some 10) ∧
        ((¬ TooLong o (oneLine o k n tag).length ∧ e.newText = before ++ oneLine o k n tag ++ after) ∨
         (TooLong o (oneLine o k n tag).length ∧ e.newText = before ++ manyLines o k n tag ++ after)) := by
  obtain ⟨t, roots, body, h1, h2, h3, h4, h5⟩ := C56_layout u cs void o d e h
  refine ⟨t, roots, h1, h2, fun k n hn => ?_⟩
  obtain ⟨a, x, r, hx, hl, ha⟩ := shown_laid h3 hn
  have hs : ∃ tag y, n.tag = some tag ∧ x = startText o k n tag ++ y := by
    match n, hl with
    | ⟨tag, start, stop, children, closed, ste, ets, attrs⟩, hl =>
      unfold NodeLaid at hl
      obtain ⟨tag', rfl, hl⟩ := hl
      cases ets with
      | none => exact ⟨tag', [], rfl, by rw [List.append_nil]; exact hl⟩
      | some e =>
        obtain ⟨s, b, _, hb, _⟩ := hl
        exact ⟨tag', _, rfl, by rw [hb, List.append_assoc]⟩
  obtain ⟨tag, y, ht, rfl⟩ := hs
  obtain ⟨z, hz⟩ : ∃ z, e.newText = body ++ z := by
    by_cases hb : o.endWithNewline = true ∧ body.getLast? ≠ some 10
    · exact ⟨_, h4 hb⟩
    · exact ⟨[], by rw [List.append_nil]; exact h5 hb⟩
  refine ⟨tag, a, y ++ r ++ z, ht, ha, ?_⟩
  by_cases hw : WrapsTag o k n tag
  · right
    refine ⟨hw, ?_⟩
    rw [hz, hx, startText, if_pos hw]
    simp only [List.append_assoc]
  · left
    refine ⟨hw, ?_⟩
    rw [hz, hx, startText, if_neg hw]
    simp only [List.append_assoc]

/-- **C56.** An element with text only, all on one line in the source, stays on one line if it fits (with one
character to spare). -/
theorem C56_stays_on_line (u : Uni) (cs : Bool) (void : List Str) (o : FormatOptions) (d : TextDoc) (e : TextEdit)
    (h : format u cs void o d none = .ok [e]) :
    ∃ t roots, Trimmed d.text t ∧ parse u cs void t = .ok roots ∧
      ∀ k n i j, ShownAt roots k n → n.children = [] → n.startTagEnd = some i → n.endTagStart = some j →
        10 ∉ bytesIn t i j → ∃ tag before after, n.tag = some tag ∧
        (¬ TooLong o ((oneLine o k n tag).length + (bytesIn t i j).length + (b!"</" ++ tag ++ b!">").length + 1) →
          e.newText = before ++ (oneLine o k n tag ++ spaced (words (bytesIn t i j)) ++ b!"</" ++ tag ++ b!">") ++ after) := by
  obtain ⟨t, roots, body, h1, h2, h3, h4, h5⟩ := C56_layout u cs void o d e h
  refine ⟨t, roots, h1, h2, fun k n i j hn hc hi hj hnl => ?_⟩
  obtain ⟨a, x, r, hx, hl, ha⟩ := shown_laid h3 hn
  obtain ⟨z, hz⟩ : ∃ z, e.newText = body ++ z := by
    by_cases hb : o.endWithNewline = true ∧ body.getLast? ≠ some 10
    · exact ⟨_, h4 hb⟩
    · exact ⟨[], by rw [List.append_nil]; exact h5 hb⟩
  match n, hl, hc, hi, hj with
  | ⟨tag, start, stop, children, closed, ste, ets, attrs⟩, hl, hc, hi, hj =>
    dsimp only at hc hi hj
    subst hc hi hj
    unfold NodeLaid at hl
    obtain ⟨tag', rfl, s, b, hs, hb, hleaf, _⟩ := hl
    cases hs
    obtain ⟨tx, h6, h7, h8⟩ := hleaf rfl
    refine ⟨tag', a, r ++ z, rfl, fun hlong => ?_⟩
    generalize hnode : (⟨some tag', start, stop, [], closed, some i, some j, attrs⟩ : Node) = n at *
    have hw : ¬ Wraps o k n tag' (bytesIn t i j) := by rintro (h | h) <;> first | exact hnl h | exact hlong h
    have hw' : ¬ WrapsTag o k n tag' := fun ⟨w, hw1, hw2⟩ => hlong ⟨w, hw1, by omega⟩
    have e1 : endText o k n tag' (bytesIn t i j) = b!"</" ++ tag' ++ b!">" := by
      unfold endText
      rw [if_neg (fun h => h.elim hw' hw)]; rfl
    rw [hz, hx, hb, h8 fun g => hw g.1, h6.1 hnl, startText, if_neg hw', e1]
    simp only [List.append_assoc]

/-- **C56.** The text of an element without children that takes several lines begins a line, indented one deeper than
the element, and so does the end tag, indented as the element is. -/
theorem C56_several_lines (u : Uni) (cs : Bool) (void : List Str) (o : FormatOptions) (d : TextDoc) (e : TextEdit)
    (h : format u cs void o d none = .ok [e]) :
    ∃ t roots, Trimmed d.text t ∧ parse u cs void t = .ok roots ∧
      ∀ k n i j, ShownAt roots k n → n.children = [] → n.startTagEnd = some i → n.endTagStart = some j →
        10 ∈ bytesIn t i j → words (bytesIn t i j) ≠ [] → ∃ tag before text after, n.tag = some tag ∧
          e.newText = before ++ b!">" ++ b!"\n" ++ indentation o (k + 1) ++ text ++ b!"\n" ++ indentation o k ++
            b!"</" ++ tag ++ b!">" ++ after ∧
          ∃ s, TextLaid o (k + 1) (bytesIn t i j) s ∧ Trimmed s text := by
  obtain ⟨t, roots, body, h1, h2, h3, h4, h5⟩ := C56_layout u cs void o d e h
  refine ⟨t, roots, h1, h2, fun k n i j hn hc hi hj hnl hword => ?_⟩
  obtain ⟨a, x, r, hx, hl, ha⟩ := shown_laid h3 hn
  obtain ⟨z, hz⟩ : ∃ z, e.newText = body ++ z := by
    by_cases hb : o.endWithNewline = true ∧ body.getLast? ≠ some 10
    · exact ⟨_, h4 hb⟩
    · exact ⟨[], by rw [List.append_nil]; exact h5 hb⟩
  match n, hl, hc, hi, hj with
  | ⟨tag, start, stop, children, closed, ste, ets, attrs⟩, hl, hc, hi, hj =>
    dsimp only at hc hi hj
    subst hc hi hj
    unfold NodeLaid at hl
    obtain ⟨tag', rfl, s, b, hs, hb, hleaf, _⟩ := hl
    cases hs
    obtain ⟨tx, h6, h7, h8⟩ := hleaf rfl
    generalize hnode : (⟨some tag', start, stop, [], closed, some i, some j, attrs⟩ : Node) = n at *
    have he : n.endTagStart ≠ none := by rw [← hnode]; simp
    obtain ⟨y, hy⟩ : ∃ y, startText o k n tag' = y ++ b!">" := by
      unfold startText manyLines oneLine
      simp only [if_neg he]
      split
      · exact ⟨_, rfl⟩
      · exact ⟨_, rfl⟩
    have e1 : endText o k n tag' (bytesIn t i j) = b!"\n" ++ indentation o k ++ b!"</" ++ tag' ++ b!">" := by
      unfold endText
      rw [if_pos (.inr (.inl hnl))]
    obtain ⟨text, h9, h10⟩ := h7 ⟨.inl hnl, hword⟩
    refine ⟨tag', a ++ y, text, r ++ z, by rw [← hnode], ?_, tx, h6, h9⟩
    rw [hz, hx, hb, h10, hy, e1]
    simp only [List.append_assoc]

/-! ### Where the layout is not what a user expects -/

/-- **C56 fails** for the roots: they are put on one line, without anything between them. -/
theorem C56_roots_glued (u : Uni) (cs : Bool) :
    format u cs [b!"br"] .default (.ref b!"<p></p>\n<p></p>\n") none = .ok [⟨⟨⟨0, 0⟩, ⟨2, 0⟩⟩, b!"<p></p><p></p>"⟩] := by
  cases cs <;> krfl

/-- **C56 fails** for the end tag behind the last child: it stays on the line of the child. -/
theorem C56_end_tag_glued (u : Uni) (cs : Bool) :
    format u cs [b!"br"] .default (.ref b!"<a><b></b></a>") none =
      .ok [⟨⟨⟨0, 0⟩, ⟨0, 14⟩⟩, b!"<a>\n    <b></b></a>"⟩] := by
  cases cs <;> krfl

/-- **C56 fails** for an element that just fits on a line: it takes several lines. -/
theorem C56_just_fits (u : Uni) (cs : Bool) :
    format u cs [b!"br"] { FormatOptions.default with wrapLineLength := some 8 } (.ref b!"<p>a</p>") none =
      .ok [⟨⟨⟨0, 0⟩, ⟨0, 8⟩⟩, b!"<p>\n    a\n</p>"⟩] := by
  cases cs <;> krfl

/-- **C56 fails** for attributes if the indentation is made of tabs: there are empty lines between them. -/
theorem C56_attributes_apart (u : Uni) (cs : Bool) :
    format u cs [b!"br"] { FormatOptions.default with wrapLineLength := some 5, insertSpaces := false }
        (.ref b!"<p a b></p>") none =
      .ok [⟨⟨⟨0, 0⟩, ⟨0, 11⟩⟩, b!"<p\n\na\n\nb\n>\n</p>"⟩] := by
  cases cs <;> krfl

/-- Formatting `<a><b>x  y</b>⏎⏎⏎⏎z</a>` with at most one empty line. -/
example : returns (format exUni false [b!"br"] { FormatOptions.default with maxPreserveNewLines := some 1 }
    (.ref b!"<a><b>x  y</b>\n\n\n\nz</a>") none) (fun es =>
    es.map (·.newText) = [b!"<a>\n    <b>x y</b>\n\n    z\n</a>"]) = true := by decide +kernel

/-- The hypotheses of `C56_own_line` and `C56_stays_on_line` hold for the element `b` of `<a><b>x  y</b></a>`: it is
shown at depth 1. -/
example (u : Uni) (cs : Bool) : ∃ roots es, format u cs [b!"br"] .default (.ref b!"<a><b>x  y</b></a>") none = .ok es ∧
    parse u cs [b!"br"] b!"<a><b>x  y</b></a>" = .ok roots ∧
    ShownAt roots 1 ⟨some b!"b", 3, 14, [], true, some 6, some 10, []⟩ := by
  refine ⟨[⟨some b!"a", 0, 18, [⟨some b!"b", 3, 14, [], true, some 6, some 10, []⟩], true, some 3, some 14, []⟩],
    [⟨⟨⟨0, 0⟩, ⟨0, 18⟩⟩, b!"<a>\n    <b>x y</b></a>"⟩], ?_, ?_,
    .child (m := ⟨some b!"a", 0, 18, [⟨some b!"b", 3, 14, [], true, some 6, some 10, []⟩], true, some 3, some 14, []⟩)
      (.root (by simp)) (by simp) (by simp)⟩ <;> cases cs <;> krfl

/-- The hypotheses of `C56_several_lines` hold for `<a>x⏎y</a>`. -/
example (u : Uni) (cs : Bool) : ∃ roots es, format u cs [b!"br"] .default (.ref b!"<a>x\ny</a>") none = .ok es ∧
    parse u cs [b!"br"] b!"<a>x\ny</a>" = .ok roots ∧
    roots = [⟨some b!"a", 0, 10, [], true, some 3, some 6, []⟩] ∧ 10 ∈ bytesIn b!"<a>x\ny</a>" 3 6 ∧
    words (bytesIn b!"<a>x\ny</a>" 3 6) ≠ [] := by
  refine ⟨[⟨some b!"a", 0, 10, [], true, some 3, some 6, []⟩],
    [⟨⟨⟨0, 0⟩, ⟨1, 5⟩⟩, b!"<a>\n    x\n    y\n</a>"⟩], ?_, ?_, rfl, by decide, by decide⟩ <;> cases cs <;> krfl

end Html.Props
