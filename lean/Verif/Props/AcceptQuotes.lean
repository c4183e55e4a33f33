import Verif.Proof.AcceptQuotes
import Verif.Proof.Encoded

/-! # Accepting the quotes behind `=`: C84, and more of C39 -/

namespace Html.Props
open Html Spec

/-- C39, for every document: the quotes that are set are offered behind each `=` that directly follows an attribute name
and is not followed by a value. -/
theorem C39_always_offered (e : CompEnv) (void : List Str) (d : TextDoc) (position : Pos) (roots : List Node) (ts : List Tok)
    (t : Tok) (h : parse e.uni e.caseSensitive void d.text = .ok roots)
    (hts : tokens (parserCfg e.uni e.caseSensitive d.text) (.new 0 .WithinContent) = .ok ts) (ht : t ∈ ts)
    (ha : AwaitsValue d.text t (d.offsetAt position)) : doQuoteComplete e d position roots = .ok (quotesText e.settings) :=
  quote_awaits (⟨h, hts⟩ : Doc _ _ _ _ _ _) ht ha

/-- The hypotheses are met even if a tag in front is cut short. -/
example : returns (parse exUni false [] b!"<a <p b=>") (fun roots =>
    decide ((doQuoteComplete exComp (exLine b!"<a <p b=>") ⟨0, 8⟩ roots).toOption = some (some b!"\"$1\""))) = true ∧
    returns (tokens (parserCfg exUni false b!"<a <p b=>") (.new 0 .WithinContent)) (fun ts =>
      ts.any (fun t => t.offset = t.stop) && ts.any (fun t => t.type = .AttributeName ∧ t.stop = 7)) = true := by
  decide +kernel

/-- C84: directly behind the `=` of an attribute of a start tag the quotes that are set are offered if the attribute has
no value, and nothing is offered if it has one. -/
theorem C84_offered_iff_no_value (e : CompEnv) (void : List Str) (d : TextDoc) (position : Pos) (roots : List Node)
    (pre v y : Str) (tag : TagHole) (hpre : EndsInContent e.uni e.caseSensitive pre) (hn : LegalName tag.name)
    (hl : (tag.fill v).Legal) (ht : d.text = pre ++ (tag.fill v).print ++ (b!">" ++ y))
    (h : parse e.uni e.caseSensitive void d.text = .ok roots) (ho : d.offsetAt position = pre.length + tag.front.length) :
    doQuoteComplete e d position roots = .ok (if v = [] then quotesText e.settings else none) :=
  quote_tag hpre hn hl ht h ho

/-- C84: what is offered is a pair of the same quotes.  If it is written at the cursor, with a value in it that does not
have this quote, then the new text is parsed: the attribute gets this value, what is behind it moves, and nothing else of
the document changes. -/
theorem C84_accept (e : CompEnv) (void : List Str) (d : TextDoc) (position : Pos) (roots : List Node) (s : Str)
    (pre y : Str) (tag : TagHole) (cps : List Nat) (hpre : EndsInContent e.uni e.caseSensitive pre) (hn : LegalName tag.name)
    (hl : (tag.fill []).Legal) (ht : d.text = pre ++ (tag.fill []).print ++ (b!">" ++ y)) (hu : Utf8 cps d.text)
    (h : parse e.uni e.caseSensitive void d.text = .ok roots) (ho : d.offsetAt position = pre.length + tag.front.length)
    (hs : doQuoteComplete e d position roots = .ok (some s)) :
    ∃ q, (q = 34 ∨ q = 39) ∧ s = [q] ++ b!"$1" ++ [q] ∧ ∀ w cps', Utf8 cps' w → q ∉ w →
      parse e.uni e.caseSensitive void
        (d.text.take (d.offsetAt position) ++ ([q] ++ w ++ [q]) ++ d.text.drop (d.offsetAt position)) =
      .ok (retagAll pre.length (tag.fill []).print.length (tag.fill ([q] ++ w ++ [q])).print.length
        ((tag.fill ([q] ++ w ++ [q])).nodes pre.length) roots) := by
  rw [quote_tag hpre hn hl ht h ho, if_pos rfl] at hs
  obtain ⟨q, hq, rfl⟩ := quotes_shape (Except.ok.inj hs)
  refine ⟨q, hq, rfl, fun w cps' hw hqw => ?_⟩
  have e1 : d.text = (pre ++ tag.front) ++ (printAttrs tag.after ++ tag.back ++ (b!">" ++ y)) := by
    rw [ht, TagHole.print_fill]; simp
  have e2 : pre ++ (tag.fill ([q] ++ w ++ [q])).print ++ (b!">" ++ y) =
      (pre ++ tag.front) ++ (([q] ++ w ++ [q]) ++ (printAttrs tag.after ++ tag.back ++ (b!">" ++ y))) := by
    rw [TagHole.print_fill]; simp
  have henc : Enc (pre ++ (tag.fill ([q] ++ w ++ [q])).print ++ (b!">" ++ y)) := by
    obtain ⟨x, hx⟩ : ∃ x, tag.front = x ++ [61] := ⟨_, rfl⟩
    have h1 : Enc ((pre ++ x) ++ (61 :: (printAttrs tag.after ++ tag.back ++ (b!">" ++ y)))) :=
      ⟨cps, by rw [e1, hx] at hu; simpa using hu⟩
    obtain ⟨h2, h3⟩ := h1.split (by intro b hb; cases hb; decide)
    have h4 : Enc (pre ++ tag.front) := by
      rw [hx, ← List.append_assoc]
      exact h2.append (.ascii (by intro b hb; cases List.mem_singleton.1 hb; decide))
    have hq7 : isAscii [q] := by rintro b hb; rw [List.mem_singleton] at hb; subst hb; rcases hq with rfl | rfl <;> decide
    rw [e2]
    exact h4.append ((((Enc.ascii hq7).append ⟨_, hw⟩).append (Enc.ascii hq7)).append (h3.tail (by decide)))
  obtain ⟨c2, henc⟩ := henc
  rw [ho, ← List.length_append, e1, List.take_left, List.drop_left, List.append_assoc, ← e2,
    C77_new_document e.uni e.caseSensitive void pre [] ([q] ++ w ++ [q]) y tag cps c2 hpre hn hl ⟨q, w, hq, hqw, rfl⟩
      (by rw [← ht]; exact hu) henc, ← ht, h]
  rfl

/-- C84: behind the first of the quotes nothing is offered (nor behind any other character than `=`). -/
theorem C84_not_again (e : CompEnv) (d : TextDoc) (position : Pos) (roots : List Node) (o b : Nat)
    (ho : d.offsetAt position = o + 1) (hb : d.text[o]? = some b) (h61 : b ≠ 61) :
    doQuoteComplete e d position roots = .ok none :=
  quote_not_behind ho hb h61

/-- The hypotheses are met by `<p a=>` with the cursor behind `=`, with both kinds of quotes. -/
example (u : Uni) (cs : Bool) :
    (parse u cs [] b!"<p a=>" >>= fun roots => doQuoteComplete (exNamesEnv u cs) (.ref b!"<p a=>") ⟨0, 5⟩ roots) =
      .ok (some b!"\"$1\"") ∧
    (parse u cs [] b!"<p a=>" >>= fun roots =>
      doQuoteComplete { exNamesEnv u cs with settings := some ⟨false, .single, []⟩ } (.ref b!"<p a=>") ⟨0, 5⟩ roots) =
      .ok (some b!"'$1'") ∧
    (parse u cs [] b!"<p a=\"\">" >>= fun roots => doQuoteComplete (exNamesEnv u cs) (.ref b!"<p a=\"\">") ⟨0, 5⟩ roots) =
      .ok none := by
  refine ⟨by cases cs <;> krfl, by cases cs <;> krfl, by cases cs <;> krfl⟩

example (u : Uni) (cs : Bool) :
    (parse u cs [] b!"<p a=\"x\">" >>= fun r => .ok (r.map Node.attributes)) = .ok [[(b!"a", ⟨some b!"\"x\"", 3⟩)]] := by
  cases cs <;> krfl

end Html.Props
