import Verif.Proof.CompletionClose
import Verif.Props.Scanner
import Verif.Props.TextDocument

/-! # Completion: C39, C40 -/

namespace Html.Props
open Html Spec

/-- Data for the examples: one provider that knows the void elements `br` and `input`. -/
def exComp : CompEnv :=
  { uni := exUni, caseSensitive := false, supportsMarkdown := true, participants := [],
    languageId := b!"html", providers := [], settings := none, entities := [] }

theorem noValue_iff {src : Str} {o : Nat} :
    noValue src o = true ↔ ∀ b, src[o]? = some b → Space b ∨ b = 62 := by
  unfold noValue
  cases h : src[o]? with
  | none => simp
  | some b =>
    simp only [Bool.or_eq_true, beq_iff_eq, Option.some.injEq, forall_eq']
    constructor
    · exact Or.imp isWs_space id
    · exact Or.imp isWs_of_space id

theorem quotes_pair (e : CompEnv) : e.quotes.pair = quotesText e.settings := by
  unfold CompEnv.quotes quotesText
  cases e.settings with
  | none => rfl
  | some c => cases h : c.quotes <;> simp [Quotes.pair, h]

/-- A document of one line, for the examples: columns are offsets. -/
def exLine (text : Str) : TextDoc := { TextDoc.ref text with offsetAt := fun p => p.character }

/-! ### C39 -/

/-- C39: if no tag in front of the cursor is cut short, quotes are offered exactly behind the `=` that
directly follows an attribute name and is not followed by a value; they are the quotes that are set. -/
theorem C39_offered_iff (e : CompEnv) (void : List Str) (d : TextDoc) (position : Pos) (roots : List Node)
    (ts : List Tok) (h : parse e.uni e.caseSensitive void d.text = .ok roots)
    (ht : tokens (parserCfg e.uni e.caseSensitive d.text) (.new 0 .WithinContent) = .ok ts)
    (hc : NoCut ts (d.offsetAt position)) :
    ∃ r, doQuoteComplete e d position roots = .ok r ∧
      ∀ v, r = some v ↔ quotesText e.settings = some v ∧ ∃ t ∈ ts, AwaitsValue d.text t (d.offsetAt position) := by
  refine ⟨_, quote_eq (⟨h, ht⟩ : Doc _ _ _ _ _ _) hc, fun v => ?_⟩
  rw [quotes_pair]
  split
  · rename_i ha
    obtain ⟨t, h1, h2⟩ := List.any_eq_true.1 ha
    simp only [decide_eq_true_eq] at h2
    obtain ⟨h2, h3, h4, h5⟩ := h2
    exact ⟨fun hv => ⟨hv, t, h1, h2, h3, h4, noValue_iff.1 h5⟩, fun hv => hv.1⟩
  · rename_i ha
    refine ⟨by simp, ?_⟩
    rintro ⟨_, t, h1, h2, h3, h4, h5⟩
    exact absurd (List.any_eq_true.2 ⟨t, h1, by simp only [decide_eq_true_eq]; exact ⟨h2, h3, h4, noValue_iff.2 h5⟩⟩) ha

/-- A document for the examples. -/
def exQuoteText : Str := b!"<p a= b=c d=>x=</p>"

example : returns (parse exUni false [] exQuoteText) (fun roots =>
    (List.range 20).map (fun i => (doQuoteComplete exComp (exLine exQuoteText) ⟨0, i⟩ roots).toOption) =
      (List.range 20).map (fun i => some (if i = 5 ∨ i = 12 then some b!"\"$1\"" else none))) = true := by
  decide +kernel

example : returns (tokens (parserCfg exUni false exQuoteText) (.new 0 .WithinContent)) (fun ts =>
    ts.all (fun t => decide (t.offset < t.stop)) && ts.any (fun t => t.type = .AttributeName ∧ t.stop = 4)) = true := by
  decide +kernel

/-- C39, for every document: an answer is the pair of quotes that is set, the character in front of the
cursor is `=`, and in front of it is something that can be an attribute name. -/
theorem C39_needs_equals (e : CompEnv) (d : TextDoc) (position : Pos) (roots : List Node) (v : Str)
    (h : doQuoteComplete e d position roots = .ok (some v)) :
    quotesText e.settings = some v ∧ ∃ o a, d.offsetAt position = o + 1 ∧ d.text[o]? = some 61 ∧ a < o ∧
      AttributeName (bytesIn d.text a o) := by
  unfold doQuoteComplete at h
  simp only at h
  split at h
  · cases h
  · rename_i h0
    obtain ⟨o, ho⟩ : ∃ o, d.offsetAt position = o + 1 := ⟨d.offsetAt position - 1, by omega⟩
    rw [ho] at h
    split at h
    · cases h
    · rename_i hg
      have hg : getStr d.text o (o + 1) = some b!"=" := by simpa using hg
      split at h
      · cases h
      · rename_i v' hq
        rw [quotes_pair] at hq
        split at h
        · cases h
        · split at h
          · obtain ⟨s, h1, h⟩ := bind_ok h
            obtain ⟨rfl, a, h2, h3⟩ := quoteLoop_some h1 h
            exact ⟨hq, o, a, ho, (getStr_one.1 hg).1, by omega, h3⟩
          · cases h

example : returns (parse exUni false [] exQuoteText) (fun roots =>
    (doQuoteComplete { exComp with settings := some ⟨false, .single, []⟩ } (exLine exQuoteText) ⟨0, 5⟩ roots).toOption =
      some (some b!"'$1'")) = true := by decide +kernel

/-- C39: nothing is offered if quotes are switched off. -/
theorem C39_switched_off (e : CompEnv) (d : TextDoc) (position : Pos) (roots : List Node) (c : CompletionConfig)
    (hs : e.settings = some c) (hq : c.quotes = .none) : doQuoteComplete e d position roots = .ok none := by
  unfold doQuoteComplete CompEnv.quotes
  simp only [hs, hq, Quotes.pair]
  split
  · rfl
  · split <;> rfl

/-- C39: a UTF-8 document without unusual white space that ends in an ASCII character gives an answer at every
position. -/
theorem C39_plain_text_returns (e : CompEnv) (d : TextDoc) (cps : List Nat) (position : Pos) (roots : List Node)
    (hu : Utf8 cps d.text) (hodd : ∀ cp ∈ cps, ¬ OddSpace cp) (hlast : ∀ b, d.text.getLast? = some b → b < 128) :
    ∃ r, doQuoteComplete e d position roots = .ok r :=
  quote_total (clean_of_utf8 hu hodd hlast) position roots

/-- C39: an ASCII document gives an answer at every position. -/
theorem C39_ascii_returns (e : CompEnv) (d : TextDoc) (position : Pos) (roots : List Node)
    (h : isAscii d.text) : ∃ r, doQuoteComplete e d position roots = .ok r :=
  quote_total (clean_of_ascii h) position roots

example : isAscii exQuoteText := by decide

/-- C39 fails behind a tag that is cut short: there quotes are offered within a comment. -/
theorem C39_fails_in_comment (u : Uni) (cs : Bool) :
    ∃ roots, parse u cs [] b!"<a <!-- b=" = .ok roots ∧
      doQuoteComplete { exComp with uni := u, caseSensitive := cs } (.ref b!"<a <!-- b=") ⟨0, 10⟩ roots =
        .ok (some b!"\"$1\"") ∧
      tokens (parserCfg u cs b!"<a <!-- b=") (.new 0 .WithinContent) =
        .ok [⟨.StartTagOpen, 0, 1, none, .AfterOpeningStartTag⟩, ⟨.StartTag, 1, 2, none, .WithinTag⟩,
          ⟨.Whitespace, 2, 3, none, .WithinTag⟩, ⟨.StartTagClose, 3, 3, some .closingBracketMissing, .WithinContent⟩,
          ⟨.StartCommentTag, 3, 7, none, .WithinComment⟩, ⟨.Comment, 7, 10, none, .WithinComment⟩] := by
  refine ⟨[⟨some b!"a", 0, 3, [], false, none, none, []⟩], ?_, ?_, ?_⟩
  · cases cs <;> krfl
  · cases cs <;> krfl
  · cases cs <;> krfl

/-! ### C40 -/

/-- C40: behind `>`, if no tag in front of the cursor is cut short, an end tag is inserted exactly if the
`>` ends the start tag of an element that is not void and is unclosed; it is the end tag of that
element. -/
theorem C40_behind_start_tag (e : CompEnv) (d : TextDoc) (position : Pos) (roots : List Node) (ts : List Tok)
    (o : Nat) (h : parse e.uni e.caseSensitive e.void d.text = .ok roots)
    (ht : tokens (parserCfg e.uni e.caseSensitive d.text) (.new 0 .WithinContent) = .ok ts)
    (ho : d.offsetAt position = o + 1) (hb : isBoundary d.text (o + 1) = true) (hg : d.text[o]? = some 62)
    (hc : NoCut ts (o + 1)) :
    ∃ r, doTagComplete e d position roots = .ok r ∧ ∀ v, r = some v ↔
      ∃ n t, InForest roots n ∧ n.startTagEnd = some (o + 1) ∧ n.tag = some t ∧ t ∉ e.void ∧
        Unclosed (o + 1) n ∧ v = b!"$0</" ++ t ++ b!">" := by
  have hg' : getStr d.text o (o + 1) = some b!">" :=
    getStr_one.2 ⟨hg, isBoundary_of_get hg (by decide), hb⟩
  obtain ⟨r, h1, h2⟩ := start_eq (⟨h, ht⟩ : Doc _ _ _ _ _ _) hc
  refine ⟨r, ?_, h2⟩
  unfold doTagComplete
  simp only [ho, Nat.add_sub_cancel]
  rw [if_neg (by omega), if_pos hg', h1]

/-- C40, for every document: behind the start tag of an element that is not void and is unclosed, the end tag of that
element is inserted. -/
theorem C40_always_closed (e : CompEnv) (d : TextDoc) (position : Pos) (roots : List Node) (n : Node) (t : Str)
    (h : parse e.uni e.caseSensitive e.void d.text = .ok roots) (hb : isBoundary d.text (d.offsetAt position) = true)
    (hn : InForest roots n) (hs : n.startTagEnd = some (d.offsetAt position)) (ht : n.tag = some t) (hv : t ∉ e.void)
    (hu : Unclosed (d.offsetAt position) n) :
    doTagComplete e d position roots = .ok (some (b!"$0</" ++ t ++ b!">")) := by
  obtain ⟨ts, hts, _⟩ := C13_one_node_per_bracket _ _ _ _ _ h
  obtain ⟨h1, h2, h3⟩ := (C14_offsets_point_at_brackets _ _ _ _ _ n h hn).2.1 _ hs
  obtain ⟨o, ho⟩ : ∃ o, d.offsetAt position = o + 1 := ⟨d.offsetAt position - 1, by omega⟩
  have hst := start_always (⟨h, hts⟩ : Doc _ _ _ _ _ _) hn hs ht hv hu
  unfold doTagComplete
  rw [ho] at hst h3 hb ⊢
  have hg : d.text[o]? = some 62 := by
    obtain ⟨r, hr⟩ := h3
    have := congrArg (·[0]?) hr
    simpa [List.getElem?_drop] using this
  simp only [Nat.add_sub_cancel]
  rw [if_neg (by omega), if_pos (getStr_one.2 ⟨hg, isBoundary_of_get hg (by decide), hb⟩), hst]

/-- The hypotheses are met even if a tag in front is cut short. -/
example : returns (parse exUni false [] b!"<a <p b>") (fun roots =>
    decide ((doTagComplete exComp (exLine b!"<a <p b>") ⟨0, 8⟩ roots).toOption = some (some b!"$0</p>"))) = true := by
  decide +kernel

/-- C40: behind `/`, if no tag in front of the cursor is cut short, text is inserted exactly if the cursor
is behind the `</` of an end tag and inside of an element that is open there: the name of the innermost
such element, with `>` if none follows. -/
theorem C40_behind_slash (e : CompEnv) (void : List Str) (d : TextDoc) (position : Pos) (roots : List Node)
    (ts : List Tok) (o : Nat) (h : parse e.uni e.caseSensitive void d.text = .ok roots)
    (ht : tokens (parserCfg e.uni e.caseSensitive d.text) (.new 0 .WithinContent) = .ok ts)
    (ho : d.offsetAt position = o + 1) (hb : isBoundary d.text (o + 1) = true) (hg : d.text[o]? = some 47)
    (hc : NoCut ts (o + 1)) :
    ∃ r, doTagComplete e d position roots = .ok r ∧ ∀ v, r = some v ↔
      ∃ x n ps t, x ∈ ts ∧ x.type = .EndTagOpen ∧ x.stop = o + 1 ∧ Chain roots ps n ∧
        OpenHere x.offset (o + 1) n ∧ (∀ m, InForest roots m → OpenHere x.offset (o + 1) m → m = n ∨ m ∈ ps) ∧
        n.tag = some t ∧
        v = if getStr d.text (o + 1) (o + 2) ≠ some b!">" then t ++ b!">" else t := by
  have hg' : getStr d.text o (o + 1) = some b!"/" :=
    getStr_one.2 ⟨hg, isBoundary_of_get hg (by decide), hb⟩
  obtain ⟨r, h1, h2⟩ := end_eq (⟨h, ht⟩ : Doc _ _ _ _ _ _) hc
  refine ⟨r, ?_, h2⟩
  unfold doTagComplete
  simp only [ho, Nat.add_sub_cancel]
  rw [if_neg (by omega), if_neg (by rw [hg']; decide), if_pos hg', h1]

/-- C40: nothing is inserted elsewhere. -/
theorem C40_elsewhere (e : CompEnv) (d : TextDoc) (position : Pos) (roots : List Node)
    (h : ∀ o, d.offsetAt position = o + 1 → d.text[o]? ≠ some 62 ∧ d.text[o]? ≠ some 47) :
    doTagComplete e d position roots = .ok none := by
  unfold doTagComplete
  simp only
  split
  · rfl
  · obtain ⟨o, ho⟩ : ∃ o, d.offsetAt position = o + 1 := ⟨d.offsetAt position - 1, by omega⟩
    rw [ho, Nat.add_sub_cancel]
    obtain ⟨h1, h2⟩ := h o ho
    rw [if_neg (fun hg => h1 (getStr_one.1 hg).1), if_neg (fun hg => h2 (getStr_one.1 hg).1)]

/-- C40: a UTF-8 document without unusual white space that ends in an ASCII character gives an answer at every
position. -/
theorem C40_plain_text_returns (e : CompEnv) (d : TextDoc) (cps : List Nat) (position : Pos) (roots : List Node)
    (hu : Utf8 cps d.text) (hodd : ∀ cp ∈ cps, ¬ OddSpace cp) (hlast : ∀ b, d.text.getLast? = some b → b < 128) :
    ∃ r, doTagComplete e d position roots = .ok r :=
  tag_total (clean_of_utf8 hu hodd hlast) position roots

/-- C40: an ASCII document gives an answer at every position. -/
theorem C40_ascii_returns (e : CompEnv) (d : TextDoc) (position : Pos) (roots : List Node)
    (h : isAscii d.text) : ∃ r, doTagComplete e d position roots = .ok r :=
  tag_total (clean_of_ascii h) position roots

/-- A document for the examples. -/
def exCloseText : Str := b!"<p><b>x</b><i></p><q></ >"

example : returns (parse exUni false [] exCloseText) (fun roots =>
    (List.range 26).map (fun i => (doTagComplete exComp (exLine exCloseText) ⟨0, i⟩ roots).toOption) =
      (List.range 26).map (fun i => some (if i = 3 then some b!"$0</p>" else if i = 6 then some b!"$0</b>"
        else if i = 9 then some b!"p>" else if i = 14 then some b!"$0</i>"
        else if i = 16 then some b!"i>" else if i = 21 then some b!"$0</q>"
        else if i = 23 then some b!"q>" else none))) = true := by
  decide +kernel

example : exComp.void = [] ∧ returns (tokens (parserCfg exUni false exCloseText) (.new 0 .WithinContent)) (fun ts =>
    ts.all (fun t => decide (t.offset < t.stop)) && ts.any (fun t => t.type = .EndTagOpen ∧ t.stop = 16)) = true := by
  refine ⟨rfl, ?_⟩
  decide +kernel

/-- C40 fails behind a tag that is cut short: there an end tag is inserted within a comment. -/
theorem C40_fails_in_comment (u : Uni) (cs : Bool) :
    ∃ roots, parse u cs [] b!"<a <!-- b>" = .ok roots ∧
      (∀ n, InForest roots n → n.startTagEnd ≠ some 10) ∧
      doTagComplete { exComp with uni := u, caseSensitive := cs } (.ref b!"<a <!-- b>") ⟨0, 10⟩ roots =
        .ok (some b!"$0</a>") := by
  refine ⟨[⟨some b!"a", 0, 3, [], false, none, none, []⟩], ?_, ?_, ?_⟩
  · cases cs <;> krfl
  · intro n hn
    obtain ⟨d, hd, h⟩ := inForest_cases hn
    simp only [List.mem_singleton] at hd
    subst hd
    rcases h with rfl | h
    · simp
    · obtain ⟨_, h, _⟩ := inForest_cases h
      cases h
  · cases cs <;> krfl

end Html.Props
