import Verif.Proof.TagProposals
import Verif.Props.Proposals

/-! # Proposals of tags: C58, C60 -/

namespace Html.Props
open Html Spec

/-! ### C58 -/

/-- C58: with the cursor in or behind the name `t` of a start tag, the proposals are the tags that enabled
providers know; each replaces the name. -/
theorem C58_in_name (e : CompEnv) (void : List Str) (d : TextDoc) (position : Pos) (roots : List Node)
    (pre post : List Tok) (t : Tok) (o : Nat) (r : List CompItem)
    (h : parse e.uni e.caseSensitive void d.text = .ok roots)
    (ht : tokens (parserCfg e.uni e.caseSensitive d.text) (.new 0 .WithinContent) = .ok (pre ++ t :: post))
    (ho : d.offsetAt position = o) (h1 : t.offset < o) (h2 : o ≤ t.stop) (hk : t.type = .StartTag)
    (hr : doComplete e d position roots = .ok r) :
    edits r = (knownTags e).map fun k => (k.name, some ⟨⟨d.posAt t.offset, d.posAt t.stop⟩, k.name⟩) :=
  (⟨h, ht⟩ : Doc _ _ _ _ _ _).tags_in_name rfl hk h1 h2 ho hr

/-- C58: with the cursor behind the `<` of a start tag (which starts the element `n`), the proposals are on
the first line the document type, then the tags that enabled providers know, then the end tag of the
innermost element around `n` that is unclosed.  Each replaces the name that follows. -/
theorem C58_behind_bracket (e : CompEnv) (void : List Str) (d : TextDoc) (cps : List Nat) (position : Pos)
    (roots : List Node) (pre post : List Tok) (t : Tok) (o : Nat) (r : List CompItem) (hu : Utf8 cps d.text)
    (h : parse e.uni e.caseSensitive void d.text = .ok roots)
    (ht : tokens (parserCfg e.uni e.caseSensitive d.text) (.new 0 .WithinContent) = .ok (pre ++ t :: post))
    (ho : d.offsetAt position = o) (h2 : t.stop = o) (hk : t.type = .StartTagOpen)
    (hr : doComplete e d position roots = .ok r) :
    ∃ n ps doctype tags close, Chain roots ps n ∧ n.start = t.offset ∧ r = doctype ++ (tags ++ close) ∧
      edits doctype = (if position.line = 0 then
        [(b!"!DOCTYPE", some ⟨⟨d.posAt o, d.posAt (nameEnd .StartTag o post)⟩, b!"!DOCTYPE html>"⟩)] else []) ∧
      edits tags = ((knownTags e).map fun k =>
        (k.name, some ⟨⟨d.posAt o, d.posAt (nameEnd .StartTag o post)⟩, k.name⟩)) ∧
      (ClosesInnermost d o ps t.offset (nameEnd .StartTag o post) (edits close) ∨
        ((∀ m tag, ¬ InnermostOpen o ps m tag) ∧ close = [])) :=
  (⟨h, ht⟩ : Doc _ _ _ _ _ _).tags_behind_bracket hu rfl hk h2 ho hr

/-- A document for the examples. -/
def exTagsText : Str := b!"<ul><li><b></b></li><l></ l><"

example : returns (exPropose (exNamesEnv exUni false) exTagsText 6) (fun r =>
    decide (r = [(b!"p", some (5, 7, b!"p"))])) = true := by
  decide +kernel

example : returns (exPropose (exNamesEnv exUni false) exTagsText 9) (fun r =>
    decide (r = [(b!"!DOCTYPE", some (9, 10, b!"!DOCTYPE html>")), (b!"p", some (9, 10, b!"p")),
      (b!"/li", some (9, 10, b!"/li"))])) = true := by
  decide +kernel

example : returns (exPropose (exNamesEnv exUni false) exTagsText 29) (fun r =>
    decide (r = [(b!"!DOCTYPE", some (29, 29, b!"!DOCTYPE html>")), (b!"p", some (29, 29, b!"p")),
      (b!"/ul", some (29, 29, b!"/ul>"))])) = true := by
  decide +kernel

example : Utf8 exTagsText exTagsText := ⟨by decide, by decide⟩

/-! ### C60 -/

/-- C60: with the cursor in or behind the `</` of an end tag `t`, the only proposal is the end tag of the
innermost unclosed element (of the element in front of the cursor, as C23 describes it, and those around it);
without one, all end tags are proposed.  Behind the `</`, a name that follows is replaced. -/
theorem C60_behind_bracket (e : CompEnv) (void : List Str) (d : TextDoc) (cps : List Nat) (position : Pos)
    (roots : List Node) (pre post : List Tok) (t : Tok) (o : Nat) (n : Node) (ps : List Node) (r : List CompItem)
    (hu : Utf8 cps d.text) (h : parse e.uni e.caseSensitive void d.text = .ok roots)
    (ht : tokens (parserCfg e.uni e.caseSensitive d.text) (.new 0 .WithinContent) = .ok (pre ++ t :: post))
    (hf : findNodeBefore roots o = some (n, ps))
    (ho : d.offsetAt position = o) (h1 : t.offset < o) (h2 : o ≤ t.stop) (hk : t.type = .EndTagOpen)
    (hr : doComplete e d position roots = .ok r) :
    ClosesInnermost d o (ps ++ [n]) t.offset (if t.stop = o then nameEnd .EndTag o post else o) (edits r) ∨
      ((∀ m tag, ¬ InnermostOpen o (ps ++ [n]) m tag) ∧
        edits r = (knownTags e).map fun k => (b!"/" ++ k.name, none)) :=
  (⟨h, ht⟩ : Doc _ _ _ _ _ _).close_behind_bracket hu hf rfl hk h1 h2 ho hr

/-- C60: the same in white space behind the `</` (the token `x`); the white space in front of the cursor is
replaced. -/
theorem C60_in_blanks (e : CompEnv) (void : List Str) (d : TextDoc) (cps : List Nat) (position : Pos)
    (roots : List Node) (pre post : List Tok) (x t : Tok) (o : Nat) (n : Node) (ps : List Node) (r : List CompItem)
    (hu : Utf8 cps d.text) (h : parse e.uni e.caseSensitive void d.text = .ok roots)
    (ht : tokens (parserCfg e.uni e.caseSensitive d.text) (.new 0 .WithinContent) = .ok (pre ++ x :: t :: post))
    (hf : findNodeBefore roots o = some (n, ps))
    (ho : d.offsetAt position = o) (h1 : t.offset < o) (h2 : o ≤ t.stop) (hx : x.type = .EndTagOpen)
    (hk : t.type = .Whitespace) (hr : doComplete e d position roots = .ok r) :
    ClosesInnermost d o (ps ++ [n]) x.offset o (edits r) ∨
      ((∀ m tag, ¬ InnermostOpen o (ps ++ [n]) m tag) ∧
        edits r = (knownTags e).map fun k => (b!"/" ++ k.name, none)) :=
  (⟨h, ht⟩ : Doc _ _ _ _ _ _).close_in_blanks hu hf rfl hx hk h1 h2 ho hr

/-- C60: the same in or behind the name `t` of an end tag, whose `</` is `y`; the name is replaced, and the
white space in front of it. -/
theorem C60_in_name (e : CompEnv) (void : List Str) (d : TextDoc) (cps : List Nat) (position : Pos)
    (roots : List Node) (pre post : List Tok) (t : Tok) (o : Nat) (n : Node) (ps : List Node) (r : List CompItem)
    (hu : Utf8 cps d.text) (h : parse e.uni e.caseSensitive void d.text = .ok roots)
    (ht : tokens (parserCfg e.uni e.caseSensitive d.text) (.new 0 .WithinContent) = .ok (pre ++ t :: post))
    (hf : findNodeBefore roots o = some (n, ps))
    (ho : d.offsetAt position = o) (h1 : t.offset < o) (h2 : o ≤ t.stop) (hk : t.type = .EndTag)
    (hr : doComplete e d position roots = .ok r) :
    ∃ y ∈ pre, y.type = .EndTagOpen ∧ (∀ z ∈ pre, z.type = .EndTagOpen → z.offset ≤ y.offset) ∧
      (ClosesInnermost d o (ps ++ [n]) y.offset t.stop (edits r) ∨
        ((∀ m tag, ¬ InnermostOpen o (ps ++ [n]) m tag) ∧
          edits r = (knownTags e).map fun k => (b!"/" ++ k.name, none))) :=
  (⟨h, ht⟩ : Doc _ _ _ _ _ _).close_in_name hu hf rfl hk h1 h2 ho hr

/-- C60: behind a `</`, if no tag in front of it is cut short, the element to close is open there, and no
other element with a name that is open there begins later. -/
theorem C60_closes_open (u : Uni) (cs : Bool) (void : List Str) (src : Str) (roots : List Node) (ts : List Tok)
    (x : Tok) (n m : Node) (ps : List Node) (tag : Str) (h : parse u cs void src = .ok roots)
    (ht : tokens (parserCfg u cs src) (.new 0 .WithinContent) = .ok ts) (hx : x ∈ ts) (hk : x.type = .EndTagOpen)
    (hc : NoCut ts x.stop) (hf : findNodeBefore roots x.stop = some (n, ps))
    (hi : InnermostOpen x.stop (ps ++ [n]) m tag) :
    InForest roots m ∧ m.tag = some tag ∧ OpenHere x.offset x.stop m ∧
      ∀ k, InForest roots k → OpenHere x.offset x.stop k → k.tag ≠ none → k.start ≤ m.start :=
  (⟨h, ht⟩ : Doc _ _ _ _ _ _).open_innermost hx hk hc hf hi

example : returns (exPropose (exNamesEnv exUni false) exTagsText 25) (fun r =>
    decide (r = [(b!"/ul", some (24, 25, b!"/ul>"))])) = true := by
  decide +kernel

example : returns (exPropose (exNamesEnv exUni false) exTagsText 26) (fun r =>
    decide (r = [(b!"/ul", some (24, 26, b!"/ul>"))])) = true := by
  decide +kernel

example : returns (exPropose (exNamesEnv exUni false) exTagsText 27) (fun r =>
    decide (r = [(b!"/ul", some (24, 27, b!"/ul"))])) = true := by
  decide +kernel

example : returns (exPropose (exNamesEnv exUni false) b!"<p></p></" 9) (fun r =>
    decide (r = [(b!"/p", none)])) = true := by
  decide +kernel

/-- C60: within the end tag of an element this end tag is not proposed, but that of the next element. -/
theorem C60_own_end_tag_not_proposed (u : Uni) (cs : Bool) :
    ∃ roots, parse u cs [] b!"<i><p></p>" = .ok roots ∧
      edits <$> doComplete (exNamesEnv u cs) (exLine b!"<i><p></p>") ⟨0, 9⟩ roots =
        .ok [(b!"/i", some ⟨⟨⟨0, 7⟩, ⟨0, 9⟩⟩, b!"/i"⟩)] := by
  refine ⟨[⟨some b!"i", 0, 10, [⟨some b!"p", 3, 10, [], true, some 6, some 6, []⟩], false, some 3, none, []⟩], ?_, ?_⟩
  · cases cs <;> krfl
  · cases cs <;> krfl

/-- C60: between `<` and `/` nothing is replaced: here `<i><p></p>` becomes `<i><p></i>/p>`. -/
theorem C60_inserts_in_bracket (u : Uni) (cs : Bool) :
    ∃ roots, parse u cs [] b!"<i><p></p>" = .ok roots ∧
      edits <$> doComplete (exNamesEnv u cs) (exLine b!"<i><p></p>") ⟨0, 7⟩ roots =
        .ok [(b!"/i", some ⟨⟨⟨0, 7⟩, ⟨0, 7⟩⟩, b!"/i>"⟩)] := by
  refine ⟨[⟨some b!"i", 0, 10, [⟨some b!"p", 3, 10, [], true, some 6, some 6, []⟩], false, some 3, none, []⟩], ?_, ?_⟩
  · cases cs <;> krfl
  · cases cs <;> krfl

/-- C60: where the indentation is corrected, the name is replaced only up to the cursor: here `</pq` with the
cursor behind the `p` becomes `</p>q`. -/
theorem C60_leaves_rest_of_name (u : Uni) (cs : Bool) :
    ∃ roots, parse u cs [] b!"<p>\n </pq" = .ok roots ∧
      edits <$> doComplete (exNamesEnv u cs) (.ref b!"<p>\n </pq") ⟨1, 4⟩ roots =
        .ok [(b!"/p", some ⟨⟨⟨1, 0⟩, ⟨1, 4⟩⟩, b!"</p>"⟩)] := by
  refine ⟨[⟨some b!"p", 0, 9, [], false, some 3, none, []⟩], ?_, ?_⟩
  · cases cs <;> krfl
  · cases cs <;> krfl

end Html.Props
