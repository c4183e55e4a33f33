import Verif.Proof.LineEndingsFormat
import Verif.Props.LineEndings
import Verif.Props.Format

/-! # Formatting with `\r\n` instead of `\n`: C102 -/

namespace Html.Props
open Html Spec

/-- **C102.** Formatting a whole document gives the same edits, or panics in the same way, with either line ending, if no
attribute value has a line end in it. -/
theorem C102_format (u : Uni) (cs : Bool) (void : List Str) (o : FormatOptions) (cps : List Nat) (d d' : TextDoc)
    (hu : Utf8 cps d.text) (hd : OtherEnds d d')
    (hv : ∀ t roots, Trimmed d.text t → parse u cs void t = .ok roots → ValuesOnLines roots) :
    format u cs void o d' none = format u cs void o d none :=
  format_cr hd hu hv

/-- The hypotheses of `C102_format` hold for `\n<p a>x\n\n  y<i>z</i>\n</p>\n`, and both texts are formatted to the same lines. -/
example (cs : Bool) : OtherEnds (.ref b!"\n<p a>x\n\n  y<i>z</i>\n</p>\n") (.ref b!"\r\n<p a>x\r\n\r\n  y<i>z</i>\r\n</p>\r\n") ∧
    ∀ t roots, Trimmed (TextDoc.ref b!"\n<p a>x\n\n  y<i>z</i>\n</p>\n").text t → parse exUni cs [] t = .ok roots →
      ValuesOnLines roots := by
  refine ⟨C92_positions _ (by decide), fun t roots ht hp => ?_⟩
  have e := trimmed_unique (by decide) ht (trimLeftStr_trimmed _)
  subst e
  have h0 : parse exUni cs [] (trimLeftStr b!"\n<p a>x\n\n  y<i>z</i>\n</p>\n") = .ok
    [⟨some b!"p", 0, 24, [⟨some b!"i", 11, 19, [], true, some 14, some 15, []⟩], true, some 5, some 20,
      [(b!"a", ⟨none, 3⟩)]⟩] := by cases cs <;> krfl
  have e := Except.ok.inj (h0.symm.trans hp)
  subst e
  intro n hn x hx v hv
  obtain ⟨d, hd, hc⟩ := inForest_cases hn
  cases List.mem_singleton.1 hd
  rcases hc with rfl | hm
  · cases List.mem_singleton.1 hx
    exact absurd hv (by simp)
  · obtain ⟨d', hd', hc'⟩ := inForest_cases hm
    cases List.mem_singleton.1 hd'
    rcases hc' with rfl | hm'
    · cases hx
    · obtain ⟨_, h0, _⟩ := inForest_cases hm'
      cases h0
example : returns (format exUni false [b!"br"] .default (.ref b!"\n<p a>x\n\n  y<i>z</i>\n</p>\n") none) (fun es => decide (es =
      [⟨⟨⟨0, 0⟩, ⟨5, 0⟩⟩, b!"<p a>\n    x\n\n    y\n    <i>z</i>\n</p>"⟩])) = true ∧
    returns (format exUni false [b!"br"] .default (.ref b!"\r\n<p a>x\r\n\r\n  y<i>z</i>\r\n</p>\r\n") none) (fun es => decide (es =
      [⟨⟨⟨0, 0⟩, ⟨5, 0⟩⟩, b!"<p a>\n    x\n\n    y\n    <i>z</i>\n</p>"⟩])) = true :=
  ⟨by decide +kernel, by decide +kernel⟩

/-- **C102 needs** values without line ends: a value is copied, all other line ends of the result are `\n`. -/
theorem C102_needs_values :
    format exUni false [] .default (.ref b!"<p a=\"\n\">\n</p>") none =
      .ok [⟨⟨⟨0, 0⟩, ⟨2, 4⟩⟩, b!"<p a=\"\n\">\n</p>"⟩] ∧
    format exUni false [] .default (.ref b!"<p a=\"\r\n\">\r\n</p>") none =
      .ok [⟨⟨⟨0, 0⟩, ⟨2, 4⟩⟩, b!"<p a=\"\r\n\">\n</p>"⟩] := by
  refine ⟨by krfl, by krfl⟩

/-- **C102 fails** for a range: only a `\n` is the end of a line to the service, so with `\r\n` the edit does not reach over the
blanks at the end of the line. -/
theorem C102_range_limit :
    format exUni false [] .default (.ref b!"<a></a>\nx  <b></b>  \n") (some ⟨⟨1, 3⟩, ⟨1, 10⟩⟩) =
      .ok [⟨⟨⟨1, 2⟩, ⟨1, 12⟩⟩, b!"<b></b>"⟩] ∧
    format exUni false [] .default (.ref b!"<a></a>\r\nx  <b></b>  \r\n") (some ⟨⟨1, 3⟩, ⟨1, 10⟩⟩) =
      .ok [⟨⟨⟨1, 2⟩, ⟨1, 10⟩⟩, b!"<b></b>"⟩] := by
  refine ⟨by krfl, by krfl⟩

end Html.Props
