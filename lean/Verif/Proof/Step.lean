import Verif.Proof.Prim

/-!
# A relational summary of one `scan()`

`Step c s s'` lists every way in which `scan` can return, with the exact new state.
`scan_step` shows that it covers `scan`; all scanner theorems are case analyses of it.
-/

namespace Html

/-- Results of arm `WithinContent`. -/
inductive StepContent (c : Cfg) (s : Sc) : Sc → Prop
  | startComment (h : (b!"<!--").isPrefixOf (rest c s) = true) :
      StepContent c s (fin { adv s 4 with state := .WithinComment } s.pos .StartCommentTag none)
  | startDoctype (h : (b!"<!doctype").isPrefixOf ((rest c s).map lowerByte) = true)
      (hb : isBoundary c.src (s.pos + 1) = true) :
      StepContent c s (fin { adv s 9 with state := .WithinDoctype } s.pos .StartDoctypeTag none)
  | endTagOpen (h : (b!"</").isPrefixOf (rest c s) = true) :
      StepContent c s (fin { adv s 2 with state := .AfterOpeningEndTag } s.pos .EndTagOpen none)
  | startTagOpen (h : (rest c s).head? = some 60) (h2 : (b!"</").isPrefixOf (rest c s) = false)
      (h3 : (b!"<!--").isPrefixOf (rest c s) = false)
      (h4 : (b!"<!doctype").isPrefixOf ((rest c s).map lowerByte) = false) :
      StepContent c s (fin { adv s 1 with state := .AfterOpeningStartTag } s.pos .StartTagOpen none)
  | content (h : (rest c s).head? ≠ some 60) (h0 : 0 < untilByte 60 (rest c s)) :
      StepContent c s (fin (adv s (untilByte 60 (rest c s))) s.pos .Content none)

/-- Results of arm `WithinEndTag`. -/
inductive StepEndTag (c : Cfg) (s : Sc) : Sc → Prop
  | ws (h : 0 < wsLen (rest c s)) :
      StepEndTag c s (fin (adv s (wsLen (rest c s))) s.pos .Whitespace none)
  | close (h : (rest c s).head? = some 62) :
      StepEndTag c s (fin { adv s 1 with state := .WithinContent } s.pos .EndTagClose none)
  | pseudo (he : c.emitPseudo = true) (h : (rest c s).head? = some 60) :
      StepEndTag c s
        (fin { s with state := .WithinContent } s.pos .EndTagClose (some .closingBracketMissing))
  | unknown (h0 : wsLen (rest c s) = 0) (h1 : (rest c s).head? ≠ some 62)
      (h : c.emitPseudo = true → (rest c s).head? ≠ some 60) :
      StepEndTag c s
        (fin { adv s 1 with state := .WithinContent } s.pos .Unknown (some .closingBracketExpected))

/-- What `WithinTag` does to the hidden fields before it looks for the closing
bracket. -/
inductive TagPre (c : Cfg) (s : Sc) : Sc → Prop
  | noSpace (h : s.hasSpace = false) : TagPre c s s
  | equals (h : s.hasSpace = true) (hb : isBoundary c.src s.pos = true)
      (hn : attrNameLen (rest c s) = 0) (he : (rest c s).head? = some 61) :
      TagPre c s { s with lastAttr := none, hasSpace := false }
  | other (h : s.hasSpace = true) (hb : isBoundary c.src s.pos = true)
      (hn : attrNameLen (rest c s) = 0) (he : (rest c s).head? ≠ some 61) :
      TagPre c s { s with lastAttr := none }

/-- Results of arm `WithinTag`. -/
inductive StepTag (c : Cfg) (s : Sc) : Sc → Prop
  | ws (h : 0 < wsLen (rest c s)) :
      StepTag c s (fin { adv s (wsLen (rest c s)) with hasSpace := true } s.pos .Whitespace none)
  | attrName (hs : s.hasSpace = true) (hw : wsLen (rest c s) = 0)
      (hb : isBoundary c.src s.pos = true) (h : 0 < attrNameLen (rest c s)) :
      StepTag c s (fin { adv s (attrNameLen (rest c s)) with
        lastAttr := some (if c.caseSensitive then (rest c s).take (attrNameLen (rest c s))
                          else toLower c.uni ((rest c s).take (attrNameLen (rest c s))))
        state := .AfterAttributeName
        hasSpace := false } s.pos .AttributeName none)
  | selfClose (s1 : Sc) (hp : TagPre c s s1) (h : (b!"/>").isPrefixOf (rest c s) = true) :
      StepTag c s (fin { adv s1 2 with state := .WithinContent } s.pos .StartTagSelfClose none)
  | close (s1 : Sc) (hp : TagPre c s s1) (h : (rest c s).head? = some 62) :
      StepTag c s (fin { adv s1 1 with state := afterStartTag s } s.pos .StartTagClose none)
  | pseudo (s1 : Sc) (hp : TagPre c s s1) (he : c.emitPseudo = true)
      (h : (rest c s).head? = some 60) :
      StepTag c s
        (fin { s1 with state := .WithinContent } s.pos .StartTagClose (some .closingBracketMissing))
  | unknown (s1 : Sc) (hp : TagPre c s s1) (h0 : wsLen (rest c s) = 0)
      (h1 : (b!"/>").isPrefixOf (rest c s) = false) (h2 : (rest c s).head? ≠ some 62)
      (h3 : c.emitPseudo = true → (rest c s).head? ≠ some 60) :
      StepTag c s (fin (adv s1 1) s.pos .Unknown (some .unexpectedCharacter))

/-- New `last_type_value` after an attribute value with text `v`. -/
def typeAfter (s : Sc) (v : Str) : Option Str :=
  if s.lastAttr = some b!"type" then nonEmpty v else s.lastType

/-- The text remembered as `type` value for a quoted value `[a, e)`. -/
def quotedType (c : Cfg) (a e : Nat) : Str :=
  if a + 1 > e - 1 then bytesIn c.src (e - 1) (a + 1) else bytesIn c.src (a + 1) (e - 1)

/-- End position of a quoted value starting at the head of `r` with quote `q`. -/
def quotedLen (q : Nat) (r : Str) : Nat :=
  let m := untilByte q (r.drop 1)
  if 1 + m < r.length then 2 + m else 1 + m

/-- Length of an unquoted value including the stray quote the scanner appends. -/
def unquotedFullLen (r : Str) : Nat :=
  let n := unquotedLen r
  if (r.drop n).head? = some 39 ∨ (r.drop n).head? = some 34 then n + 1 else n

/-- Results of one `scan`. -/
inductive Step (c : Cfg) (s : Sc) : Sc → Prop
  | eos (h : c.src.length ≤ s.pos) : Step c s (fin s s.pos .EOS none)
  | content (s' : Sc) (h : s.pos < c.src.length) (hs : s.state = .WithinContent)
      (hx : StepContent c s s') : Step c s s'
  | commentEnd (h : s.pos < c.src.length) (hs : s.state = .WithinComment)
      (hx : (b!"-->").isPrefixOf (rest c s) = true) :
      Step c s (fin { adv s 3 with state := .WithinContent } s.pos .EndCommentTag none)
  | comment (h : s.pos < c.src.length) (hs : s.state = .WithinComment)
      (hx : (b!"-->").isPrefixOf (rest c s) = false) (h0 : 0 < untilLit b!"-->" (rest c s)) :
      Step c s (fin (adv s (untilLit b!"-->" (rest c s))) s.pos .Comment none)
  | doctypeEnd (h : s.pos < c.src.length) (hs : s.state = .WithinDoctype)
      (hx : (rest c s).head? = some 62) :
      Step c s (fin { adv s 1 with state := .WithinContent } s.pos .EndDoctypeTag none)
  | doctype (h : s.pos < c.src.length) (hs : s.state = .WithinDoctype)
      (hx : (rest c s).head? ≠ some 62) (h0 : 0 < untilByte 62 (rest c s)) :
      Step c s (fin (adv s (untilByte 62 (rest c s))) s.pos .Doctype none)
  | endTagName (h : s.pos < c.src.length) (hs : s.state = .AfterOpeningEndTag)
      (hb : isBoundary c.src s.pos = true) (h0 : 0 < elementNameLen c.uni (rest c s)) :
      Step c s (fin { adv s (elementNameLen c.uni (rest c s)) with state := .WithinEndTag }
        s.pos .EndTag none)
  | endTagWs (h : s.pos < c.src.length) (hs : s.state = .AfterOpeningEndTag)
      (hb : isBoundary c.src s.pos = true) (hn : elementNameLen c.uni (rest c s) = 0)
      (h0 : 0 < wsLen (rest c s)) :
      Step c s (fin (adv s (wsLen (rest c s))) s.pos .Whitespace (some .nameMustFollow))
  | endTagNoName (h : s.pos < c.src.length) (hs : s.state = .AfterOpeningEndTag)
      (hb : isBoundary c.src s.pos = true) (hn : elementNameLen c.uni (rest c s) = 0)
      (hw : wsLen (rest c s) = 0) (h0 : 0 < untilByte 62 (rest c s)) :
      Step c s (fin { adv s (untilByte 62 (rest c s)) with state := .WithinEndTag }
        s.pos .Unknown (some .endTagNameExpected))
  | endTagImmediate (h : s.pos < c.src.length) (hs : s.state = .AfterOpeningEndTag)
      (hb : isBoundary c.src s.pos = true) (hn : elementNameLen c.uni (rest c s) = 0)
      (hw : wsLen (rest c s) = 0) (h0 : (rest c s).head? = some 62) :
      Step c s (fin { adv s 1 with state := .WithinContent } s.pos .EndTagClose none)
  | endTag (s' : Sc) (h : s.pos < c.src.length) (hs : s.state = .WithinEndTag)
      (hx : StepEndTag c s s') : Step c s s'
  | startTagName (h : s.pos < c.src.length) (hs : s.state = .AfterOpeningStartTag)
      (hb : isBoundary c.src s.pos = true) (h0 : 0 < elementNameLen c.uni (rest c s)) :
      Step c s (fin { adv s (elementNameLen c.uni (rest c s)) with
        lastTag := some (if c.caseSensitive then (rest c s).take (elementNameLen c.uni (rest c s))
                         else toLower c.uni ((rest c s).take (elementNameLen c.uni (rest c s))))
        lastType := none
        lastAttr := none
        hasSpace := false
        state := .WithinTag } s.pos .StartTag none)
  | startTagWs (h : s.pos < c.src.length) (hs : s.state = .AfterOpeningStartTag)
      (hb : isBoundary c.src s.pos = true) (hn : elementNameLen c.uni (rest c s) = 0)
      (h0 : 0 < wsLen (rest c s)) :
      Step c s (fin { adv s (wsLen (rest c s)) with
        lastTag := none, lastType := none, lastAttr := none }
        s.pos .Whitespace (some .nameMustFollow))
  | startTagNoName (h : s.pos < c.src.length) (hs : s.state = .AfterOpeningStartTag)
      (hb : isBoundary c.src s.pos = true) (hn : elementNameLen c.uni (rest c s) = 0)
      (hw : wsLen (rest c s) = 0) (h0 : 0 < untilByte 62 (rest c s)) :
      Step c s (fin { adv s (untilByte 62 (rest c s)) with
        lastTag := none, lastType := none, lastAttr := none, state := .WithinTag }
        s.pos .Unknown (some .startTagNameExpected))
  | startTagImmediate (h : s.pos < c.src.length) (hs : s.state = .AfterOpeningStartTag)
      (hb : isBoundary c.src s.pos = true) (hn : elementNameLen c.uni (rest c s) = 0)
      (hw : wsLen (rest c s) = 0) (h0 : (rest c s).head? = some 62) :
      Step c s (fin { adv s 1 with
        lastTag := none, lastType := none, lastAttr := none, state := .WithinContent }
        s.pos .StartTagClose none)
  | tag (s' : Sc) (h : s.pos < c.src.length) (hs : s.state = .WithinTag)
      (hx : StepTag c s s') : Step c s s'
  | afterNameWs (h : s.pos < c.src.length) (hs : s.state = .AfterAttributeName)
      (h0 : 0 < wsLen (rest c s)) :
      Step c s (fin { adv s (wsLen (rest c s)) with hasSpace := true } s.pos .Whitespace none)
  | assign (h : s.pos < c.src.length) (hs : s.state = .AfterAttributeName)
      (hw : wsLen (rest c s) = 0) (h0 : (rest c s).head? = some 61) :
      Step c s (fin { adv s 1 with state := .BeforeAttributeValue } s.pos .DelimiterAssign none)
  | afterNameTag (s' : Sc) (h : s.pos < c.src.length) (hs : s.state = .AfterAttributeName)
      (hw : wsLen (rest c s) = 0) (h0 : (rest c s).head? ≠ some 61)
      (hx : StepTag c { s with state := .WithinTag } s') : Step c s s'
  | valueWs (h : s.pos < c.src.length) (hs : s.state = .BeforeAttributeValue)
      (h0 : 0 < wsLen (rest c s)) :
      Step c s (fin { adv s (wsLen (rest c s)) with state := .WithinTag, hasSpace := true }
        s.pos .Whitespace none)
  | valueUnquoted (h : s.pos < c.src.length) (hs : s.state = .BeforeAttributeValue)
      (hw : wsLen (rest c s) = 0) (hb : isBoundary c.src s.pos = true)
      (h0 : 0 < unquotedLen (rest c s)) :
      Step c s (fin { adv s (unquotedFullLen (rest c s)) with
        lastType := typeAfter s (bytesIn c.src s.pos (s.pos + unquotedFullLen (rest c s)))
        state := .WithinTag, hasSpace := false } s.pos .AttributeValue none)
  | valueQuoted (h : s.pos < c.src.length) (hs : s.state = .BeforeAttributeValue)
      (hw : wsLen (rest c s) = 0) (hb : isBoundary c.src s.pos = true)
      (h0 : unquotedLen (rest c s) = 0) (q : Nat) (hq : q = 39 ∨ q = 34)
      (h1 : (rest c s).head? = some q) :
      Step c s (fin { adv s (quotedLen q (rest c s)) with
        lastType := typeAfter s (quotedType c s.pos (s.pos + quotedLen q (rest c s)))
        state := .WithinTag, hasSpace := false } s.pos .AttributeValue none)
  | valueTag (s' : Sc) (h : s.pos < c.src.length) (hs : s.state = .BeforeAttributeValue)
      (hw : wsLen (rest c s) = 0) (hb : isBoundary c.src s.pos = true)
      (h0 : unquotedLen (rest c s) = 0)
      (h1 : (rest c s).head? ≠ some 39 ∧ (rest c s).head? ≠ some 34)
      (hx : StepTag c { s with state := .WithinTag, hasSpace := false } s') : Step c s s'
  | script (p : Nat) (st : SS) (h : s.pos < c.src.length) (hs : s.state = .WithinScriptContent)
      (hp : s.pos < p) (hl : p ≤ c.src.length)
      (hst : (st = .WithinContent ∧ scriptLoop c (c.src.length - s.pos + 1) 1 s.pos = .ok (.at p)) ∨
        (st = .WithinScriptContent ∧ p = c.src.length ∧
          scriptLoop c (c.src.length - s.pos + 1) 1 s.pos = .ok .noMatch)) :
      Step c s (fin { s with pos := p, state := st } s.pos .Script none)
  | scriptContent (s' : Sc) (h : s.pos < c.src.length) (hs : s.state = .WithinScriptContent)
      (hl : scriptLoop c (c.src.length - s.pos + 1) 1 s.pos = .ok (.at s.pos))
      (hx : StepContent c { s with state := .WithinContent } s') : Step c s s'
  | style (h : s.pos < c.src.length) (hs : s.state = .WithinStyleContent)
      (hb : isBoundary c.src s.pos = true) (h0 : 0 < untilLit b!"</style" (rest c s)) :
      Step c s (fin { adv s (untilLit b!"</style" (rest c s)) with state := .WithinContent }
        s.pos .Styles none)
  | styleContent (s' : Sc) (h : s.pos < c.src.length) (hs : s.state = .WithinStyleContent)
      (hb : isBoundary c.src s.pos = true) (h0 : untilLit b!"</style" (rest c s) = 0)
      (hx : StepContent c { s with state := .WithinContent } s') : Step c s s'

/-! ### Auxiliary facts -/

theorem peek_eq_head (c : Cfg) (s : Sc) : peek c s = (rest c s).head? := by
  simp [peek, rest]

theorem rest_length (c : Cfg) (s : Sc) : (rest c s).length = c.src.length - s.pos := by
  simp [rest]

theorem rest_ne_nil {c : Cfg} {s : Sc} (h : s.pos < c.src.length) : rest c s ≠ [] := by
  intro h0; have := rest_length c s; rw [h0] at this; simp at this; omega

theorem rest_adv (c : Cfg) (s : Sc) (n : Nat) : rest c (adv s n) = (rest c s).drop n := by
  simp [rest, adv]

theorem eos_false {c : Cfg} {s : Sc} (h : s.pos < c.src.length) : eos c s = false := by
  simp [eos]; omega

theorem eos_true {c : Cfg} {s : Sc} (h : c.src.length ≤ s.pos) : eos c s = true := by
  simp [eos]; omega

theorem sliceFrom_ok {c : Cfg} {s : Sc} {r : Str} (h : sliceFrom c s = .ok r) :
    r = rest c s ∧ isBoundary c.src s.pos = true := by
  have := sliceStr_ok h
  exact ⟨by rw [this.2.2.2.2, bytesIn_to_end]; rfl, this.2.2.1⟩

theorem sliceFrom_eq {c : Cfg} {s : Sc} (h : isBoundary c.src s.pos = true) :
    sliceFrom c s = .ok (rest c s) := by
  unfold sliceFrom
  rw [sliceStr_eq (isBoundary_le h) h (isBoundary_length _), bytesIn_to_end]; rfl

theorem bind_ok {α β : Type} {x : R α} {f : α → R β} {b : β} (h : (x >>= f) = .ok b) :
    ∃ a, x = .ok a ∧ f a = .ok b := by
  cases x with
  | error e => cases h
  | ok a => exact ⟨a, rfl, h⟩

theorem subU_ok {a b r : Nat} (h : subU a b = .ok r) : b ≤ a ∧ r = a - b := by
  unfold subU at h; split at h
  · cases h; exact ⟨by assumption, rfl⟩
  · cases h

end Html
