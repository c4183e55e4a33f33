import Verif.Model.LanguageFacts
import Verif.Model.SelectionRange

/-!
# Hover (`/repo/src/services/html_hover.rs`)

Also `is_letter_or_digit` of `/repo/src/utils/strings.rs` and `does_support_markdown` of
`/repo/src/utils/markdown.rs`.
-/

namespace Html

/-- `lsp_types::Hover` with `HoverContents::Markup` (the other kinds of contents are only ever
handed through from participants). -/
structure Hover where
  contents : Markup
  range : Option Range
deriving DecidableEq, Repr

/-- The trait `IHoverParticipant`, participant.rs 11-17, for one document and position:
`on_html_attribute_value` is given the tag, the attribute, the value and its range. -/
structure HoverParticipant where
  onAttributeValue : Str → Str → Str → Range → Option Hover
  onContent : Option Hover

/-- The capabilities read by `does_support_markdown`: the documentation formats of completion
items, if all structs on the way to them are present. -/
structure ClientCaps where
  /-- `textDocument.completion.completionItem.documentationFormat` contains `markdown` -/
  completionMarkdown : Option Bool
  /-- `textDocument.hover.contentFormat` contains `markdown` (never read by the code) -/
  hoverMarkdown : Option Bool
deriving DecidableEq, Repr

/-- `does_support_markdown`, markdown.rs 5-20. -/
def doesSupportMarkdown : Option ClientCaps → Bool
  | none => true
  | some c => c.completionMarkdown.getD false

/-- `HTMLHover`, html_hover.rs 30-34, with the data the answer depends on besides the document:
the language id, the data providers, the settings, and the table of entities. -/
structure HoverEnv where
  uni : Uni
  caseSensitive : Bool
  supportsMarkdown : Bool
  participants : List HoverParticipant
  languageId : Str
  providers : List Provider
  documentation : Bool
  references : Bool
  /-- `html_entities::ENTITIES` -/
  entities : HMap Str

/-- The applicable providers, html_hover.rs 72-77. -/
def HoverEnv.applicable (e : HoverEnv) : List Provider :=
  e.providers.filter (·.isApplicable e.languageId)

/-- The setting for `generate_documentation`, html_hover.rs 197-201, 248-252, 303-307. -/
def HoverEnv.setting (e : HoverEnv) : DocSetting := ⟨e.documentation, e.references, e.supportsMarkdown⟩

/-- `convert_contents`, html_hover.rs 513-538. -/
def HoverEnv.convert (e : HoverEnv) (m : Markup) : Markup :=
  if e.supportsMarkdown then m else ⟨false, m.value⟩

/-- The comparison of tags, html_hover.rs 186-190. -/
def HoverEnv.sameTag (e : HoverEnv) (a b : Str) : Bool :=
  if e.caseSensitive then a == b else toLower e.uni a == toLower e.uni b

/-- The loop over the tags of one provider, html_hover.rs 185-216. -/
def HoverEnv.tagHover1 (e : HoverEnv) (curTag : Str) (range : Range) : List TagData → Option Hover → Option Hover
  | [], hover => hover
  | t :: ts, hover =>
    e.tagHover1 curTag range ts
      (if e.sameTag t.name curTag then
        some ⟨e.convert ((generateDocumentation t.description t.references e.setting).getD
          ⟨e.supportsMarkdown, []⟩), some range⟩
      else hover)

/-- `get_tag_hover`, html_hover.rs 175-222: the loop over the providers. -/
def HoverEnv.tagHover (e : HoverEnv) (curTag : Str) (range : Range) : List Provider → Option Hover
  | [] => none
  | p :: ps =>
    match e.tagHover1 curTag range p.provideTags none with
    | some h => some h
    | none => e.tagHover curTag range ps

/-- The loop over the attributes of one provider, html_hover.rs 234-264. -/
def HoverEnv.attrHover1 (e : HoverEnv) (curAttr : Str) (range : Range) :
    List AttributeData → Option Hover → Option Hover
  | [], hover => hover
  | a :: as, hover =>
    e.attrHover1 curAttr range as
      (if curAttr = a.name ∧ a.description.isSome then
        (generateDocumentation a.description a.references e.setting).map
          (fun m => ⟨e.convert m, some range⟩)
      else hover)

/-- `get_attr_hover`, html_hover.rs 224-270. -/
def HoverEnv.attrHover (e : HoverEnv) (curTag curAttr : Str) (range : Range) (offset : Nat) :
    List Provider → Option Hover
  | [] => none
  | p :: ps =>
    match e.attrHover1 curAttr range (p.provideAttributes curTag offset) none with
    | some h => some h
    | none => e.attrHover curTag curAttr range offset ps

/-- The loop over the values of one provider, html_hover.rs 296-316. -/
def HoverEnv.valueHover1 (e : HoverEnv) (curValue : Str) (range : Range) : List ValueData → Option Hover
  | [] => none
  | v :: vs =>
    if curValue = v.name ∧ v.description.isSome then
      match generateDocumentation v.description v.references e.setting with
      | some m => some ⟨e.convert m, some range⟩
      | none => e.valueHover1 curValue range vs
    else e.valueHover1 curValue range vs

/-- The loop over the providers, html_hover.rs 295-317. -/
def HoverEnv.valueHover (e : HoverEnv) (curTag curAttr curValue : Str) (range : Range) :
    List Provider → Option Hover
  | [] => none
  | p :: ps =>
    match e.valueHover1 curValue range (p.provideValues curTag curAttr) with
    | some h => some h
    | none => e.valueHover curTag curAttr curValue range ps

/-- The first participant that answers, html_hover.rs 280-294, 161-170. -/
def firstAnswer (f : HoverParticipant → Option Hover) : List HoverParticipant → Option Hover
  | [] => none
  | p :: ps =>
    match f p with
    | some h => some h
    | none => firstAnswer f ps

/-- `get_attr_value_hover`, html_hover.rs 272-320. -/
def HoverEnv.attrValueHover (e : HoverEnv) (curTag curAttr curValue : Str) (range : Range) : Option Hover :=
  match firstAnswer (fun p => p.onAttributeValue curTag curAttr curValue range) e.participants with
  | some h => some h
  | none => e.valueHover curTag curAttr curValue range e.applicable

/-! ### Entities -/

/-- `is_letter_or_digit`, strings.rs 2-7: `get` is `None` off character boundaries, but then
the byte there is no letter or digit. -/
def isLetterOrDigit (text : Str) (i : Nat) : Bool :=
  match text[i]? with
  | some b => (48 ≤ b && b ≤ 57) || (65 ≤ b && b ≤ 90) || (97 ≤ b && b ≤ 122)
  | none => false

/-- Number of letters and digits directly in front of an offset. -/
def lettersBefore (text : Str) : Nat → Nat
  | 0 => 0
  | k + 1 => if isLetterOrDigit text k then 1 + lettersBefore text k else 0

/-- Number of letters and digits from an offset on (fuel: length of the text). -/
def lettersFrom (text : Str) : Nat → Nat → Nat
  | 0, _ => 0
  | f + 1, n => if isLetterOrDigit text n then 1 + lettersFrom text f (n + 1) else 0

/-- `get_entity_range`, html_hover.rs 401-446.  `character_start -= 1` can underflow. -/
def getEntityRange (d : TextDoc) (position : Pos) (offset : Nat) : R (Option Range) := do
  let m := lettersBefore d.text offset
  let characterStart ← subU position.character m
  let k := offset - m
  let n := lettersFrom d.text d.text.length k
  let characterEnd := characterStart + n
  if k > 0 ∧ d.text[k - 1]? = some 38 then
    if d.text[k + n]? = some 59 then
      .ok (some ⟨⟨position.line, characterStart⟩, ⟨position.line, characterEnd + 1⟩⟩)
    else
      .ok (some ⟨⟨position.line, characterStart⟩, ⟨position.line, characterEnd⟩⟩)
  else .ok none

/-- `filter_entity`, html_hover.rs 448-468.  If the letters reach the start of the text, the
`isize` counter is -1 and the increment after the cast overflows. -/
def filterEntity (text : Str) (offset : Nat) : R Str :=
  let m := lettersBefore text offset
  if m = offset then .error .underflow
  else
    let k := offset - m
    .ok (b!"&" ++ bytesIn text k (k + lettersFrom text text.length k) ++ b!";")

/-- `str::chars`. -/
def codePoints : Str → List Nat
  | [] => []
  | b :: t => if isCont b then codePoints t else codePoint (b :: t) :: codePoints t

/-- One hexadecimal digit, upper case. -/
def hexDigit (d : Nat) : Nat := if d < 10 then 48 + d else 55 + d

/-- Hexadecimal digits of a number with at most as many digits as there is fuel. -/
def hexDigits : Nat → Nat → Str
  | 0, _ => []
  | f + 1, n => if n < 16 then [hexDigit n] else hexDigits f (n / 16) ++ [hexDigit (n % 16)]

/-- `format!("{:02X}", c as u32)`. -/
def hex2 (n : Nat) : Str := if n < 16 then 48 :: hexDigits 8 n else hexDigits 8 n

/-- The code of a value, html_hover.rs 335-352. -/
def entityCode (value : Str) : Str :=
  let code := ((codePoints value).map hex2).flatten
  b!"U+" ++ List.replicate (4 - code.length) 48 ++ code

/-- The loop over the table, html_hover.rs 331-365.  The order of the entries does not matter
because the keys are different. -/
def HoverEnv.entityHover1 (e : HoverEnv) (curEntity : Str) (range : Range) : HMap Str → Option Hover
  | [] => none
  | (entity, value) :: t =>
    if curEntity = b!"&" ++ entity then
      some ⟨e.convert ⟨false, b!"Character entity representing '" ++ value ++
        b!"', unicode equivalent '" ++ entityCode value ++ b!"'"⟩, some range⟩
    else e.entityHover1 curEntity range t

/-- `get_entity_hover`, html_hover.rs 322-368. -/
def HoverEnv.entityHover (e : HoverEnv) (text : Str) (range : Range) (offset : Nat) : R (Option Hover) := do
  let curEntity ← filterEntity text offset
  .ok (e.entityHover1 curEntity range e.entities)

/-! ### Tokens -/

/-- A loop `token = scan(); while token != EOS && cont { token = scan() }` (fuel: one unit per
token). -/
def scanWhile (c : Cfg) (cont : Tok → Bool) : Nat → Sc → R Sc
  | 0, _ => .error .fuel
  | fuel + 1, s => do
    let s1 ← scan c s
    if s1.tokenType ≠ .EOS ∧ cont s1.tok then scanWhile c cont fuel s1 else .ok s1

/-- The scanner configuration, html_hover.rs 376-382, 476-482. -/
def HoverEnv.cfg (e : HoverEnv) (d : TextDoc) : Cfg := ⟨e.uni, d.text, false, e.caseSensitive⟩

/-- `get_tag_name_range`, html_hover.rs 370-399. -/
def HoverEnv.tokenRange (e : HoverEnv) (d : TextDoc) (tokenType : TT) (startOffset offset : Nat) :
    R (Option Range) := do
  let s ← scanWhile (e.cfg d)
    (fun t => decide (t.stop < offset ∨ (t.stop = offset ∧ t.type ≠ tokenType)))
    (2 * d.text.length + 1) (.new startOffset .WithinContent)
  if s.tokenType = tokenType ∧ offset ≤ s.pos then
    .ok (some ⟨d.posAt s.tokenOffset, d.posAt s.pos⟩)
  else .ok none

/-- The loop of `scan_attr_and_attr_value`, html_hover.rs 486-491; `s` is the scanner after a
scan. -/
def attrBefore (c : Cfg) (start : Nat) : Nat → Option Str → Sc → R (Option Str)
  | 0, _, _ => .error .fuel
  | fuel + 1, prev, s =>
    if s.tokenType ≠ .EOS ∧ s.pos ≤ start then do
      let s1 ← scan c s
      let prev ← (if s1.tokenType = .AttributeName then do
          let t ← tokenText c s1
          .ok (some t)
        else .ok prev)
      attrBefore c start fuel prev s1
    else .ok prev

/-- `scan_attr_and_attr_value`, html_hover.rs 470-494. -/
def HoverEnv.scanAttr (e : HoverEnv) (d : TextDoc) (nodeStart valueStart : Nat) : R (Option Str) := do
  let s ← scan (e.cfg d) (.new nodeStart .WithinContent)
  attrBefore (e.cfg d) valueStart (2 * d.text.length + 1) none s

/-- A quote. -/
def isQuote (b : Nat) : Bool := b == 39 || b == 34

/-- `trim_quotes`, html_hover.rs 496-511. -/
def trimQuotes (s : Str) : Str :=
  if s.length ≤ 1 then (if s.any isQuote then [] else s)
  else
    let s := if s.head?.any isQuote then s.drop 1 else s
    if s.getLast?.any isQuote then s.take (s.length - 1) else s

/-! ### do_hover -/

/-- The last steps, html_hover.rs 139-172: attribute values, then the participants. -/
def HoverEnv.hoverValue (e : HoverEnv) (d : TextDoc) (node : Node) (tag : Str) (offset : Nat) :
    R (Option Hover) := do
  match ← e.tokenRange d .AttributeValue node.start offset with
  | some range =>
    let content ← d.content range
    match ← e.scanAttr d node.start (d.offsetAt range.start) with
    | some attr => .ok (e.attrValueHover tag attr (trimQuotes content) range)
    | none => .ok (firstAnswer (·.onContent) e.participants)
  | none => .ok (firstAnswer (·.onContent) e.participants)

/-- The steps for a cursor in front of the end tag, html_hover.rs 116-172. -/
def HoverEnv.hoverInside (e : HoverEnv) (d : TextDoc) (position : Pos) (node : Node) (tag : Str)
    (offset : Nat) : R (Option Hover) := do
  match ← e.tokenRange d .StartTag node.start offset with
  | some range => .ok (e.tagHover tag range e.applicable)
  | none =>
    match ← e.tokenRange d .AttributeName node.start offset with
    | some range =>
      let attr ← d.content range
      .ok (e.attrHover tag attr range offset e.applicable)
    | none =>
      match ← getEntityRange d position offset with
      | some range => e.entityHover d.text range offset
      | none => e.hoverValue d node tag offset

/-- `do_hover`, html_hover.rs 49-173. -/
def doHover (e : HoverEnv) (d : TextDoc) (position : Pos) (roots : List Node) : R (Option Hover) :=
  let offset := d.offsetAt position
  match findNodeAt roots offset with
  | none => .ok none
  | some (node, _) =>
    match node.tag with
    | none => .ok none
    | some tag =>
      match node.endTagStart with
      | none => e.hoverInside d position node tag offset
      | some ets =>
        if offset ≥ ets then do
          match ← e.tokenRange d .EndTag ets offset with
          | some range => .ok (e.tagHover tag range e.applicable)
          | none => .ok none
        else e.hoverInside d position node tag offset

end Html
