import Verif.Proof.ValueProposals
import Verif.Props.Proposals
import Verif.Props.Hover

/-! # Proposals of attribute values, in content and behind start tags: C59, C61, C62 -/

namespace Html.Props
open Html Spec

/-! ### C59 -/

/-- C59: with the cursor in a value `t` with quotes (or behind it), the proposals are those of the participants,
then the values that enabled providers know for the attribute `y` of the element `n`; each replaces the word
around the cursor.  The participants are told the text in front of the cursor, but not if the cursor is at
the end. -/
theorem C59_in_quotes (e : CompEnv) (void : List Str) (d : TextDoc) (cps : List Nat) (position : Pos)
    (roots : List Node) (pre post : List Tok) (t : Tok) (o : Nat) (r : List CompItem) (hu : Utf8 cps d.text)
    (h : parse e.uni e.caseSensitive void d.text = .ok roots)
    (ht : tokens (parserCfg e.uni e.caseSensitive d.text) (.new 0 .WithinContent) = .ok (pre ++ t :: post))
    (ho : d.offsetAt position = o) (h1 : t.offset < o) (h2 : o ≤ t.stop) (hk : t.type = .AttributeValue)
    (hq : d.text[t.offset]? = some 34 ∨ d.text[t.offset]? = some 39)
    (hr : doComplete e d position roots = .ok r) :
    ∃ n y a b parts values, InForest roots n ∧ n.start < t.offset ∧ t.stop ≤ n.startTagEnd.getD n.stop ∧
      n.start < y.offset ∧ LastName pre y ∧ r = parts ++ values ∧
      parts = fromParticipants e (n.tag.getD []) (Spec.text d.text y)
        (if o < contentStop d.text t then bytesIn d.text (t.offset + 1) o else []) ⟨d.posAt t.offset, d.posAt t.stop⟩ ∧
      WordAround d.text (t.offset + 1) (contentStop d.text t) o a b ∧
      edits values = (knownValues e (n.tag.getD []) (Spec.text d.text y)).map fun k =>
        (k.name, some ⟨⟨d.posAt a, d.posAt b⟩, k.name⟩) :=
  (⟨h, ht⟩ : Doc _ _ _ _ _ _).values_in_quotes hu rfl hk hq h1 h2 ho hr

/-- C59: in a value without quotes the proposals replace the value, with quotes added. -/
theorem C59_unquoted (e : CompEnv) (void : List Str) (d : TextDoc) (cps : List Nat) (position : Pos)
    (roots : List Node) (pre post : List Tok) (t : Tok) (o : Nat) (r : List CompItem) (hu : Utf8 cps d.text)
    (h : parse e.uni e.caseSensitive void d.text = .ok roots)
    (ht : tokens (parserCfg e.uni e.caseSensitive d.text) (.new 0 .WithinContent) = .ok (pre ++ t :: post))
    (ho : d.offsetAt position = o) (h1 : t.offset < o) (h2 : o ≤ t.stop) (hk : t.type = .AttributeValue)
    (hq : d.text[t.offset]? ≠ some 34 ∧ d.text[t.offset]? ≠ some 39)
    (hr : doComplete e d position roots = .ok r) :
    ∃ n y parts values, InForest roots n ∧ n.start < t.offset ∧ t.stop ≤ n.startTagEnd.getD n.stop ∧
      n.start < y.offset ∧ LastName pre y ∧ r = parts ++ values ∧
      parts = fromParticipants e (n.tag.getD []) (Spec.text d.text y) (bytesIn d.text t.offset o)
        ⟨d.posAt t.offset, d.posAt t.stop⟩ ∧
      edits values = (knownValues e (n.tag.getD []) (Spec.text d.text y)).map fun k =>
        (k.name, some ⟨⟨d.posAt t.offset, d.posAt t.stop⟩, b!"\"" ++ k.name ++ b!"\""⟩) :=
  (⟨h, ht⟩ : Doc _ _ _ _ _ _).values_unquoted hu rfl hk hq h1 h2 ho hr

/-- C59: directly behind the `=` the proposals replace the value that follows, with quotes added. -/
theorem C59_behind_equals (e : CompEnv) (void : List Str) (d : TextDoc) (position : Pos)
    (roots : List Node) (pre post : List Tok) (t : Tok) (o : Nat) (r : List CompItem)
    (h : parse e.uni e.caseSensitive void d.text = .ok roots)
    (ht : tokens (parserCfg e.uni e.caseSensitive d.text) (.new 0 .WithinContent) = .ok (pre ++ t :: post))
    (ho : d.offsetAt position = o) (h2 : t.stop = o) (hk : t.type = .DelimiterAssign)
    (hr : doComplete e d position roots = .ok r) :
    ∃ n y parts values, InForest roots n ∧ n.start < t.offset ∧ t.stop ≤ n.startTagEnd.getD n.stop ∧
      n.start < y.offset ∧ LastName pre y ∧ r = parts ++ values ∧
      parts = fromParticipants e (n.tag.getD []) (Spec.text d.text y) []
        ⟨d.posAt o, d.posAt (nameEnd .AttributeValue o post)⟩ ∧
      edits values = (knownValues e (n.tag.getD []) (Spec.text d.text y)).map fun k =>
        (k.name, some ⟨⟨d.posAt o, d.posAt (nameEnd .AttributeValue o post)⟩, b!"\"" ++ k.name ++ b!"\""⟩) :=
  (⟨h, ht⟩ : Doc _ _ _ _ _ _).values_behind_equals rfl hk h2 ho hr

/-- A document for the examples. -/
def exValueText : Str := b!"<p a=\"x yz \" b=u c= >d&am"

example : Utf8 exValueText exValueText := ⟨by decide, by decide⟩

example : returns (exPropose (exNamesEnv exUni false) exValueText 9) (fun r =>
    decide (r = [(b!"c", some (8, 10, b!"c"))])) = true := by
  decide +kernel

example : returns (exPropose (exNamesEnv exUni false) exValueText 16) (fun r =>
    decide (r = [(b!"c", some (15, 16, b!"\"c\""))])) = true := by
  decide +kernel

example : returns (exPropose (exNamesEnv exUni false) exValueText 5) (fun r =>
    decide (r = [(b!"c", some (5, 12, b!"\"c\""))])) = true := by
  decide +kernel

/-- C59: behind a value with quotes the closing quote is replaced too: here `<p a="x"` becomes `<p a="c`. -/
theorem C59_removes_closing_quote (u : Uni) (cs : Bool) :
    ∃ roots, parse u cs [] b!"<p a='x'" = .ok roots ∧
      edits <$> doComplete (exNamesEnv u cs) (exLine b!"<p a='x'") ⟨0, 8⟩ roots =
        .ok [(b!"c", some ⟨⟨⟨0, 6⟩, ⟨0, 8⟩⟩, b!"c"⟩)] := by
  refine ⟨[⟨some b!"p", 0, 8, [], false, none, none, [(b!"a", ⟨some b!"'x'", 3⟩)]⟩], ?_, ?_⟩
  · cases cs <;> krfl
  · cases cs <;> krfl

/-- C59: with a value that is not ASCII the call panics. -/
theorem C59_panics (u : Uni) (cs : Bool) :
    ∃ roots, parse u cs [] [60, 97, 32, 98, 61, 39, 195, 169, 39] = .ok roots ∧
      doComplete (exNamesEnv u cs) (exLine [60, 97, 32, 98, 61, 39, 195, 169, 39]) ⟨0, 8⟩ roots = .error .slice := by
  refine ⟨[⟨some b!"a", 0, 9, [], false, none, none, [(b!"b", ⟨some [39, 195, 169, 39], 3⟩)]⟩], ?_, ?_⟩
  · cases cs <;> krfl
  · cases cs <;> krfl

example : Utf8 [60, 97, 32, 98, 61, 39, 0xe9, 39] [60, 97, 32, 98, 61, 39, 195, 169, 39] := ⟨by decide, by decide⟩

/-! ### C61 -/

/-- C61: with the cursor in content behind the beginning of an element, the proposals are those of the
participants, and behind `&` and letters and digits the character references that end with a semicolon; each
replaces what is typed from the `&` on.  -/
theorem C61_in_content (e : CompEnv) (void : List Str) (d : TextDoc) (cps : List Nat) (position : Pos)
    (roots : List Node) (n : Node) (pre post : List Tok) (t : Tok) (o : Nat) (r : List CompItem)
    (hu : Utf8 cps d.text) (hc : Columns d) (hp : Exact d position)
    (h : parse e.uni e.caseSensitive void d.text = .ok roots)
    (ht : tokens (parserCfg e.uni e.caseSensitive d.text) (.new 0 .WithinContent) = .ok (pre ++ t :: post))
    (ho : d.offsetAt position = o) (h1 : t.offset < o) (h2 : o ≤ t.stop) (hk : t.type = .Content)
    (hn : InForest roots n) (hno : n.start < o) (hr : doComplete e d position roots = .ok r) :
    ∃ refs, r = e.participants.flatMap (·.onContent) ++ refs ∧
      (∀ k, RefStart d.text o k → edits refs = (e.entities.filter fun a => a.1.getLast? == some 59).map fun a =>
          (b!"&" ++ a.1, some ⟨⟨d.posAt k, position⟩, b!"&" ++ a.1⟩)) ∧
      ((∀ k, ¬ RefStart d.text o k) → refs = []) :=
  (⟨h, ht⟩ : Doc _ _ _ _ _ _).in_content hu hc hp hn hno rfl hk h1 h2 ho hr

/-- C61: in front of the first element nothing is proposed. -/
theorem C61_before_elements (e : CompEnv) (void : List Str) (d : TextDoc) (position : Pos) (roots : List Node)
    (h : parse e.uni e.caseSensitive void d.text = .ok roots)
    (hn : ∀ n, InForest roots n → d.offsetAt position ≤ n.start) : doComplete e d position roots = .ok [] := by
  have := (C23_none_iff _ _ _ _ _ _ h).2 hn
  unfold doComplete
  simp only [this]

/-- An environment with character references. -/
def exRefsEnv : CompEnv := { exComp with entities := [(b!"amp;", b!"&"), (b!"amp", b!"&"), (b!"lt;", b!"<")] }

example : returns (exPropose exRefsEnv b!"<p>d&am" 7) (fun r =>
    decide (r = [(b!"&amp;", some (4, 7, b!"&amp;")), (b!"&lt;", some (4, 7, b!"&lt;"))])) = true := by
  decide +kernel

example : RefStart b!"<p>d&am" 7 4 := by
  refine ⟨by decide, by decide, fun i h1 h2 => ?_⟩
  have : i = 5 ∨ i = 6 := by omega
  rcases this with rfl | rfl
  · exact ⟨97, rfl, by unfold alnum; omega⟩
  · exact ⟨109, rfl, by unfold alnum; omega⟩

example : Columns (.ref b!"<p>d&am") ∧ Exact (.ref b!"<p>d&am") ⟨0, 7⟩ := by
  refine ⟨ref_columns _, ?_⟩
  unfold Exact
  krfl

example : returns (exPropose exRefsEnv b!"&am" 3) (fun r => decide (r = [])) = true := by
  decide +kernel

/-! ### C62 -/

/-- C62: directly behind the `>` of a start tag the only proposal is to insert the end tag behind the cursor; it
is not made for void elements, for elements without a name or if the settings forbid it. -/
theorem C62_behind_start_tag (e : CompEnv) (void : List Str) (d : TextDoc) (position : Pos) (roots : List Node)
    (pre post : List Tok) (t : Tok) (o : Nat) (r : List CompItem)
    (h : parse e.uni e.caseSensitive void d.text = .ok roots)
    (ht : tokens (parserCfg e.uni e.caseSensitive d.text) (.new 0 .WithinContent) = .ok (pre ++ t :: post))
    (ho : d.offsetAt position = o) (h1 : t.offset < t.stop) (h2 : t.stop = o) (hk : t.type = .StartTagClose)
    (hr : doComplete e d position roots = .ok r) :
    ∃ n, InForest roots n ∧ n.startTagEnd = some o ∧
      (∀ tag, n.tag = some tag → edits r = if e.settings.any (·.hideAutoComplete) = true ∨ tag ∈ e.void then []
        else [(b!"</" ++ tag ++ b!">", some ⟨⟨d.posAt o, d.posAt o⟩, b!"$0</" ++ tag ++ b!">"⟩)]) ∧
      (n.tag = none → r = []) :=
  (⟨h, ht⟩ : Doc _ _ _ _ _ _).behind_close rfl hk h1 h2 ho hr

example : returns (exPropose (exNamesEnv exUni false) exValueText 21) (fun r =>
    decide (r = [(b!"</p>", some (21, 21, b!"$0</p>"))])) = true := by
  decide +kernel

/-- C62: the end tag is also proposed for an element that has one. -/
theorem C62_proposes_second_end_tag (u : Uni) (cs : Bool) :
    ∃ roots, parse u cs [] b!"<p></p>" = .ok roots ∧
      edits <$> doComplete (exNamesEnv u cs) (exLine b!"<p></p>") ⟨0, 3⟩ roots =
        .ok [(b!"</p>", some ⟨⟨⟨0, 3⟩, ⟨0, 3⟩⟩, b!"$0</p>"⟩)] := by
  refine ⟨[⟨some b!"p", 0, 7, [], true, some 3, some 3, []⟩], ?_, ?_⟩
  · cases cs <;> krfl
  · cases cs <;> krfl

end Html.Props
