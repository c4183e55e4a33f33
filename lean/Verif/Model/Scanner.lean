import Verif.Model.Bytes

/-!
# The scanner (`/repo/src/parser/html_scanner.rs`)

`Cfg` holds what never changes during scanning, `Sc` the mutable fields.
Every arm of `internal_scan` is one function; the recursive calls
`self.internal_scan()` always happen with a statically known state
(`WithinTag`, `WithinEndTag` or `WithinContent`), so they are modelled by calling
that state's arm after the end-of-input test.
-/

namespace Html

/-- `TokenType`, html_scanner.rs 486-509. -/
inductive TT
  | StartCommentTag | Comment | EndCommentTag | StartTagOpen | StartTagClose
  | StartTagSelfClose | StartTag | EndTagOpen | EndTagClose | EndTag
  | DelimiterAssign | AttributeName | AttributeValue | StartDoctypeTag | Doctype
  | EndDoctypeTag | Content | Whitespace | Unknown | Script | Styles | EOS
deriving DecidableEq, Repr

/-- `ScannerState`, html_scanner.rs 511-524. -/
inductive SS
  | WithinContent | AfterOpeningStartTag | AfterOpeningEndTag | WithinDoctype
  | WithinTag | WithinEndTag | WithinComment | WithinScriptContent
  | WithinStyleContent | AfterAttributeName | BeforeAttributeValue
deriving DecidableEq, Repr

/-- The error messages attached to tokens, html_scanner.rs 170-299. -/
inductive ErrMsg
  /-- "Tag name must directly follow the open bracket." -/
  | nameMustFollow
  /-- "End tag name expected." -/
  | endTagNameExpected
  /-- "Start tag name expected." -/
  | startTagNameExpected
  /-- "Closing bracket missing." -/
  | closingBracketMissing
  /-- "Closing bracket expected." -/
  | closingBracketExpected
  /-- "Unexpected character in tag." -/
  | unexpectedCharacter
deriving DecidableEq, Repr

/-- Immutable part of `Scanner` (html_scanner.rs 18-32): source text and flags. -/
structure Cfg where
  uni : Uni
  src : Str
  emitPseudo : Bool
  caseSensitive : Bool

/-- Mutable part of `Scanner` (html_scanner.rs 18-32); `pos` is the position of
the `MultiLineStream`. -/
structure Sc where
  state : SS
  tokenType : TT
  tokenOffset : Nat
  tokenError : Option ErrMsg
  pos : Nat
  hasSpace : Bool
  lastTag : Option Str
  lastAttr : Option Str
  lastType : Option Str
deriving DecidableEq, Repr

/-- `Scanner::new`, html_scanner.rs 34-57. -/
def Sc.new (initialOffset : Nat) (initialState : SS) : Sc where
  state := initialState
  tokenType := .Unknown
  tokenOffset := 0
  tokenError := none
  pos := initialOffset
  hasSpace := false
  lastTag := none
  lastAttr := none
  lastType := none

/-- The unread input. -/
def rest (c : Cfg) (s : Sc) : Str := c.src.drop s.pos

/-- `MultiLineStream::eos`. -/
def eos (c : Cfg) (s : Sc) : Bool := c.src.length ≤ s.pos

/-- `MultiLineStream::advance`. -/
def adv (s : Sc) (n : Nat) : Sc := { s with pos := s.pos + n }

/-- `MultiLineStream::go_back` (checked subtraction). -/
def goBack (s : Sc) (n : Nat) : R Sc := do
  let p ← subU s.pos n
  return { s with pos := p }

/-- `MultiLineStream::go_to_end`. -/
def goToEnd (c : Cfg) (s : Sc) : Sc := { s with pos := c.src.length }

/-- `MultiLineStream::peek_char(0)`. -/
def peek (c : Cfg) (s : Sc) : Option Nat := c.src[s.pos]?

/-- `MultiLineStream::peek_char(-1)`. -/
def peekPrev (c : Cfg) (s : Sc) : Option Nat :=
  if s.pos = 0 then none else c.src[s.pos - 1]?

/-- `&source[pos..]`, taken by the regex functions of `MultiLineStream`. -/
def sliceFrom (c : Cfg) (s : Sc) : R Str := sliceStr c.src s.pos c.src.length

/-- `finish_token`, html_scanner.rs 444-454 (the returned token type is the field
`tokenType` of the new state). -/
def fin (s : Sc) (offset : Nat) (t : TT) (e : Option ErrMsg) : Sc :=
  { s with tokenType := t, tokenOffset := offset, tokenError := e }

/-! ### The regexes, html_scanner.rs 7-15 -/

/-- `REG_ELEMENT_NAME`: `^[_:\w][_:\w\-.\d]*`, first class. -/
def nameFirst (u : Uni) (cp : Nat) : Bool := cp == 95 || cp == 58 || isWordCP u cp

/-- `REG_ELEMENT_NAME`, second class (`\d` is contained in `\w`). -/
def nameRest (u : Uni) (cp : Nat) : Bool :=
  cp == 95 || cp == 58 || isWordCP u cp || cp == 45 || cp == 46

/-- `REG_ELEMENT_NAME`: length of the match, 0 for no match. -/
def elementNameLen (u : Uni) (s : Str) : Nat := firstRunLen (nameFirst u) (nameRest u) s

/-- Character class of `REG_NON_ELEMENT_NAME`:
`[^\s"'></=\x00-\x0F\x7F\x80-\x9F]`. -/
def attrNameChar (cp : Nat) : Bool :=
  !(isSpaceCP cp || cp == 34 || cp == 39 || cp == 62 || cp == 60 || cp == 47 || cp == 61 ||
    cp ≤ 0x0F || (0x7F ≤ cp && cp ≤ 0x9F))

/-- `REG_NON_ELEMENT_NAME`: length of the match, 0 for no match. -/
def attrNameLen (s : Str) : Nat := firstRunLen attrNameChar attrNameChar s

/-- Character class of `REG_NON_SPECIAL_START`: ``[^\s"'`=<>]``. -/
def unquotedChar (cp : Nat) : Bool :=
  !(isSpaceCP cp || cp == 34 || cp == 39 || cp == 96 || cp == 61 || cp == 60 || cp == 62)

/-- `REG_NON_SPECIAL_START`: length of the match, 0 for no match. -/
def unquotedLen (s : Str) : Nat := firstRunLen unquotedChar unquotedChar s

/-- `REG_DOCTYPE`: `^!(?i)doctype` (no non-ASCII character folds to one of these
letters). -/
def isDoctype (s : Str) : Bool := (b!"!doctype").isPrefixOf (s.map lowerByte)

/-- The three alternatives of `REG_SCRIPT_COMMENT`, with `/?` as a fourth. -/
inductive ScriptMatch
  | commentOpen | commentClose | scriptOpen | scriptClose
deriving DecidableEq, Repr

/-- Tail `\s*\/?>?` of the third alternative of `REG_SCRIPT_COMMENT`: number of bytes. -/
def scriptTailLen (s : Str) : Nat :=
  let n := runLen isSpaceCP s
  let s1 := s.drop n
  let k := if s1.head? = some 47 then 1 else 0
  let s2 := s1.drop k
  n + k + (if s2.head? = some 62 then 1 else 0)

/-- `REG_SCRIPT_COMMENT` (`<!--|-->|<\/?script\s*\/?>?`) at the head of the input:
kind and length of the match. -/
def scriptMatchAt (s : Str) : Option (ScriptMatch × Nat) :=
  if (b!"<!--").isPrefixOf s then some (.commentOpen, 4)
  else if (b!"-->").isPrefixOf s then some (.commentClose, 3)
  else if (b!"<script").isPrefixOf s then some (.scriptOpen, 7 + scriptTailLen (s.drop 7))
  else if (b!"</script").isPrefixOf s then some (.scriptClose, 8 + scriptTailLen (s.drop 8))
  else none

/-- First match of `REG_SCRIPT_COMMENT` in the input: kind, start, length. -/
def scriptFind : Str → Option (ScriptMatch × Nat × Nat)
  | [] => none
  | b :: t =>
    match scriptMatchAt (b :: t) with
    | some (k, n) => some (k, 0, n)
    | none => (scriptFind t).map (fun (k, i, n) => (k, i + 1, n))

/-! ### Names -/

/-- `next_element_name`, html_scanner.rs 456-468. -/
def nextElementName (c : Cfg) (s : Sc) : R (Option Str × Sc) := do
  let r ← sliceFrom c s
  let n := elementNameLen c.uni r
  if n = 0 then return (none, s)
  let m := r.take n
  return (some (if c.caseSensitive then m else toLower c.uni m), adv s n)

/-- `next_attribute_name`, html_scanner.rs 470-482. -/
def nextAttributeName (c : Cfg) (s : Sc) : R (Option Str × Sc) := do
  let r ← sliceFrom c s
  let n := attrNameLen r
  if n = 0 then return (none, s)
  let m := r.take n
  return (some (if c.caseSensitive then m else toLower c.uni m), adv s n)

/-! ### The arms of `internal_scan`, html_scanner.rs 110-442 -/

/-- Arm `WithinComment`, html_scanner.rs 118-126. -/
def armComment (c : Cfg) (s : Sc) (offset : Nat) : R Sc :=
  if (b!"-->").isPrefixOf (rest c s) then
    .ok (fin { adv s 3 with state := .WithinContent } offset .EndCommentTag none)
  else
    .ok (fin (adv s (untilLit b!"-->" (rest c s))) offset .Comment none)

/-- Arm `WithinDoctype`, html_scanner.rs 128-135. -/
def armDoctype (c : Cfg) (s : Sc) (offset : Nat) : R Sc :=
  if peek c s = some 62 then
    .ok (fin { adv s 1 with state := .WithinContent } offset .EndDoctypeTag none)
  else
    .ok (fin (adv s (untilByte 62 (rest c s))) offset .Doctype none)

/-- Arm `WithinContent`, html_scanner.rs 137-162. -/
def armContent (c : Cfg) (s : Sc) (offset : Nat) : R Sc :=
  if peek c s = some 60 then
    let s1 := adv s 1
    let afterBang : R Sc :=
      if peek c s1 = some 47 then
        .ok (fin { adv s1 1 with state := .AfterOpeningEndTag } offset .EndTagOpen none)
      else
        .ok (fin { s1 with state := .AfterOpeningStartTag } offset .StartTagOpen none)
    if peek c s1 = some 33 then
      if (b!"!--").isPrefixOf (rest c s1) then
        .ok (fin { adv s1 3 with state := .WithinComment } offset .StartCommentTag none)
      else do
        let r ← sliceFrom c s1
        if isDoctype r then
          .ok (fin { adv s1 8 with state := .WithinDoctype } offset .StartDoctypeTag none)
        else afterBang
    else afterBang
  else
    .ok (fin (adv s (untilByte 60 (rest c s))) offset .Content none)

/-- Arm `WithinEndTag` with the code after the `match` (lines 439-441),
html_scanner.rs 190-210. -/
def armEndTag (c : Cfg) (s : Sc) (offset : Nat) : R Sc :=
  let w := wsLen (rest c s)
  if w > 0 then .ok (fin (adv s w) offset .Whitespace none)
  else if peek c s = some 62 then
    .ok (fin { adv s 1 with state := .WithinContent } offset .EndTagClose none)
  else if c.emitPseudo && peek c s = some 60 then
    .ok (fin { s with state := .WithinContent } offset .EndTagClose (some .closingBracketMissing))
  else
    .ok (fin { adv s 1 with state := .WithinContent } offset .Unknown (some .closingBracketExpected))

/-- State after a real `>` of a start tag, html_scanner.rs 264-283. -/
def afterStartTag (s : Sc) : SS :=
  if s.lastTag = some b!"script" then
    if s.lastType.isSome then .WithinContent else .WithinScriptContent
  else if s.lastTag = some b!"style" then .WithinStyleContent
  else .WithinContent

/-- Second half of arm `WithinTag`, html_scanner.rs 257-301. -/
def armTagRest (c : Cfg) (s : Sc) (offset : Nat) : R Sc :=
  if (b!"/>").isPrefixOf (rest c s) then
    .ok (fin { adv s 2 with state := .WithinContent } offset .StartTagSelfClose none)
  else if peek c s = some 62 then
    .ok (fin { adv s 1 with state := afterStartTag s } offset .StartTagClose none)
  else if c.emitPseudo && peek c s = some 60 then
    .ok (fin { s with state := .WithinContent } offset .StartTagClose (some .closingBracketMissing))
  else
    .ok (fin (adv s 1) offset .Unknown (some .unexpectedCharacter))

/-- Arm `WithinTag`, html_scanner.rs 241-301. -/
def armTag (c : Cfg) (s : Sc) (offset : Nat) : R Sc :=
  let w := wsLen (rest c s)
  if w > 0 then .ok (fin { adv s w with hasSpace := true } offset .Whitespace none)
  else if s.hasSpace then do
    let (name, s1) ← nextAttributeName c s
    let s2 := { s1 with lastAttr := name }
    if name.isSome then
      .ok (fin { s2 with state := .AfterAttributeName, hasSpace := false } offset .AttributeName none)
    else if peek c s2 = some 61 then armTagRest c { s2 with hasSpace := false } offset
    else armTagRest c s2 offset
  else armTagRest c s offset

/-- `internal_scan` in state `WithinEndTag` (the recursive call of line 187). -/
def internalEndTag (c : Cfg) (s : Sc) : R Sc :=
  if eos c s then .ok (fin s s.pos .EOS none) else armEndTag c s s.pos

/-- `internal_scan` in state `WithinTag` (the recursive calls of lines 238, 314, 389). -/
def internalTag (c : Cfg) (s : Sc) : R Sc :=
  if eos c s then .ok (fin s s.pos .EOS none) else armTag c s s.pos

/-- `internal_scan` in state `WithinContent` (the recursive calls of lines 426, 435). -/
def internalContent (c : Cfg) (s : Sc) : R Sc :=
  if eos c s then .ok (fin s s.pos .EOS none) else armContent c s s.pos

/-- Arm `AfterOpeningEndTag`, html_scanner.rs 164-188. -/
def armAfterOpeningEndTag (c : Cfg) (s : Sc) (offset : Nat) : R Sc := do
  let (name, s1) ← nextElementName c s
  if name.isSome then
    .ok (fin { s1 with state := .WithinEndTag } offset .EndTag none)
  else
    let w := wsLen (rest c s1)
    if w > 0 then .ok (fin (adv s1 w) offset .Whitespace (some .nameMustFollow))
    else
      let s2 := { s1 with state := SS.WithinEndTag }
      let s3 := adv s2 (untilByte 62 (rest c s2))
      if offset < s3.pos then .ok (fin s3 offset .Unknown (some .endTagNameExpected))
      else internalEndTag c s3

/-- Arm `AfterOpeningStartTag`, html_scanner.rs 212-239. -/
def armAfterOpeningStartTag (c : Cfg) (s : Sc) (offset : Nat) : R Sc := do
  let (name, s0) ← nextElementName c s
  let s1 := { s0 with lastTag := name, lastType := none, lastAttr := none }
  if name.isSome then
    .ok (fin { s1 with hasSpace := false, state := .WithinTag } offset .StartTag none)
  else
    let w := wsLen (rest c s1)
    if w > 0 then .ok (fin (adv s1 w) offset .Whitespace (some .nameMustFollow))
    else
      let s2 := { s1 with state := SS.WithinTag }
      let s3 := adv s2 (untilByte 62 (rest c s2))
      if offset < s3.pos then .ok (fin s3 offset .Unknown (some .startTagNameExpected))
      else internalTag c s3

/-- Arm `AfterAttributeName`, html_scanner.rs 303-315. -/
def armAfterAttributeName (c : Cfg) (s : Sc) (offset : Nat) : R Sc :=
  let w := wsLen (rest c s)
  if w > 0 then .ok (fin { adv s w with hasSpace := true } offset .Whitespace none)
  else if peek c s = some 61 then
    .ok (fin { adv s 1 with state := .BeforeAttributeValue } offset .DelimiterAssign none)
  else internalTag c { s with state := .WithinTag }

/-- `Some(s)` if the string is not empty (html_scanner.rs 343-347, 376-380). -/
def nonEmpty (s : Str) : Option Str := if s.length ≠ 0 then some s else none

/-- Remember the text of a quoted value if the attribute is `type`,
html_scanner.rs 366-381. -/
def rememberQuoted (c : Cfg) (s : Sc) (offset : Nat) : R Sc :=
  if s.lastAttr = some b!"type" then do
    let e ← subU s.pos 1
    let v ← (if offset + 1 > e then sliceStr c.src e (offset + 1)
             else sliceStr c.src (offset + 1) e)
    .ok { s with lastType := nonEmpty v }
  else .ok s

/-- Arm `BeforeAttributeValue` after no unquoted value was found,
html_scanner.rs 359-389. -/
def armQuotedValue (c : Cfg) (s : Sc) (offset : Nat) : R Sc :=
  match peek c s with
  | some ch =>
    if ch = 39 ∨ ch = 34 then do
      let s1 := adv s 1
      let n := untilByte ch (rest c s1)
      let s2 := adv s1 n
      let s3 := if peek c s2 = some ch then adv s2 1 else s2
      let s4 ← rememberQuoted c s3 offset
      .ok (fin { s4 with state := .WithinTag, hasSpace := false } offset .AttributeValue none)
    else internalTag c { s with state := .WithinTag, hasSpace := false }
  | none => internalTag c { s with state := .WithinTag, hasSpace := false }

/-- The slash taken off an unquoted value, html_scanner.rs 327-332. -/
def trimValue (isGoBack : Bool) (v : Str) : R Str :=
  if isGoBack then sliceStr v 0 (v.length - 1) else .ok v

/-- The value extended by a directly following quote, html_scanner.rs 333-336;
`pos` is the position after the quote. -/
def extendValue (c : Cfg) (quote : Bool) (pos : Nat) (v : Str) : R Str :=
  if quote then do
    let a ← subU pos v.length
    let a ← subU a 1
    sliceStr c.src a pos
  else .ok v

/-- Arm `BeforeAttributeValue`, html_scanner.rs 317-390. -/
def armBeforeAttributeValue (c : Cfg) (s : Sc) (offset : Nat) : R Sc :=
  let w := wsLen (rest c s)
  if w > 0 then
    .ok (fin { adv s w with state := .WithinTag, hasSpace := true } offset .Whitespace none)
  else do
    let curChar := peek c s
    let prevChar := peekPrev c s
    let r ← sliceFrom c s
    let n := unquotedLen r
    if n = 0 then armQuotedValue c s offset
    else do
      let s1 := adv s n
      let isGoBack := curChar == some 62 && prevChar == some 47
      let v1 ← trimValue isGoBack (r.take n)
      let quote := peek c s1 == some 39 || peek c s1 == some 34
      let s2 := if quote then adv s1 1 else s1
      let v2 ← extendValue c quote s2.pos v1
      let s3 := if s2.lastAttr = some b!"type" then { s2 with lastType := nonEmpty v2 } else s2
      let s4 ← (if isGoBack then goBack s3 1 else .ok s3)
      if v2.length > 0 then
        .ok (fin { s4 with state := .WithinTag, hasSpace := false } offset .AttributeValue none)
      else armQuotedValue c s4 offset

/-- Result of the loop of arm `WithinScriptContent`: the new position, and whether
the loop returned early because no match was left. -/
inductive ScriptEnd
  /-- no match left: the loop returns a `Script` token at the end of input -/
  | noMatch
  /-- the loop ended (by `break` or at the end of input) at this position -/
  | at (pos : Nat)
deriving DecidableEq, Repr

/-- The loop of arm `WithinScriptContent`, html_scanner.rs 394-421. `fuel` bounds the
number of iterations (every iteration consumes a byte). -/
def scriptLoop (c : Cfg) : Nat → Nat → Nat → R ScriptEnd
  | 0, _, _ => .error .fuel
  | fuel + 1, st, pos =>
    if c.src.length ≤ pos then .ok (.at pos)
    else do
      let r ← sliceStr c.src pos c.src.length
      match scriptFind r with
      | none => .ok .noMatch
      | some (k, i, n) =>
        let pos' := pos + i + n
        match k with
        | .commentOpen => scriptLoop c fuel (if st = 1 then 2 else st) pos'
        | .commentClose => scriptLoop c fuel 1 pos'
        | .scriptOpen => scriptLoop c fuel (if st = 2 then 3 else st) pos'
        | .scriptClose =>
          if st = 3 then scriptLoop c fuel 2 pos'
          else do
            let p ← subU pos' n
            .ok (.at p)

/-- Arm `WithinScriptContent`, html_scanner.rs 392-427. -/
def armScript (c : Cfg) (s : Sc) (offset : Nat) : R Sc := do
  match ← scriptLoop c (c.src.length - s.pos + 1) 1 s.pos with
  | .noMatch => .ok (fin (goToEnd c s) offset .Script none)
  | .at p =>
    let s1 := { s with pos := p, state := .WithinContent }
    if offset < s1.pos then .ok (fin s1 offset .Script none)
    else internalContent c s1

/-- Arm `WithinStyleContent`, html_scanner.rs 429-436. -/
def armStyle (c : Cfg) (s : Sc) (offset : Nat) : R Sc := do
  let r ← sliceFrom c s
  let s1 := { adv s (untilLit b!"</style" r) with state := .WithinContent }
  if offset < s1.pos then .ok (fin s1 offset .Styles none)
  else internalContent c s1

/-- `internal_scan`, html_scanner.rs 110-442. -/
def internalScan (c : Cfg) (s : Sc) : R Sc :=
  if eos c s then .ok (fin s s.pos .EOS none)
  else match s.state with
    | .WithinComment => armComment c s s.pos
    | .WithinDoctype => armDoctype c s s.pos
    | .WithinContent => armContent c s s.pos
    | .AfterOpeningEndTag => armAfterOpeningEndTag c s s.pos
    | .WithinEndTag => armEndTag c s s.pos
    | .AfterOpeningStartTag => armAfterOpeningStartTag c s s.pos
    | .WithinTag => armTag c s s.pos
    | .AfterAttributeName => armAfterAttributeName c s s.pos
    | .BeforeAttributeValue => armBeforeAttributeValue c s s.pos
    | .WithinScriptContent => armScript c s s.pos
    | .WithinStyleContent => armStyle c s s.pos

/-- The condition of the recovery branch of `scan`, html_scanner.rs 63-66: the
token is not EOS, nothing was consumed, and it is not a permitted pseudo-close. -/
def notAdvanced (c : Cfg) (oldPos : Nat) (s : Sc) : Bool :=
  s.tokenType != .EOS && oldPos == s.pos &&
    !(c.emitPseudo && (s.tokenType == .StartTagClose || s.tokenType == .EndTagClose))

/-- `scan`, html_scanner.rs 59-76 (the returned token type is `tokenType`). -/
def scan (c : Cfg) (s : Sc) : R Sc := do
  let s1 ← internalScan c s
  if notAdvanced c s.pos s1 then
    return fin (adv s1 1) s.pos .Unknown none
  else return s1

/-! ### Getters, html_scanner.rs 78-108 -/

/-- `get_token_end`, html_scanner.rs 90-92. -/
def Sc.tokenEnd (s : Sc) : Nat := s.pos

/-- `get_token_length`, html_scanner.rs 86-88 (it cannot underflow after a scan, see
`Props`). -/
def Sc.tokenLength (s : Sc) : Nat := s.pos - s.tokenOffset

/-- `get_token_text`, html_scanner.rs 94-96. -/
def tokenText (c : Cfg) (s : Sc) : R Str := sliceStr c.src s.tokenOffset s.pos

/-! ### Running a scanner -/

/-- What an observer sees after one `scan()`: type, offset, end, error, scanner state. -/
structure Tok where
  type : TT
  offset : Nat
  stop : Nat
  error : Option ErrMsg
  state : SS
deriving DecidableEq, Repr

/-- The observable token of a scanner. -/
def Sc.tok (s : Sc) : Tok := ⟨s.tokenType, s.tokenOffset, s.pos, s.tokenError, s.state⟩

/-- `n` calls of `scan()`. -/
def scanN (c : Cfg) : Nat → Sc → R Sc
  | 0, s => .ok s
  | n + 1, s => do scanN c n (← scan c s)

/-- The usual client loop `while scan() != EOS { observe }`, with fuel. -/
def tokensF (c : Cfg) : Nat → Sc → R (List Tok)
  | 0, _ => .error .fuel
  | fuel + 1, s => do
    let s1 ← scan c s
    if s1.tokenType = .EOS then return []
    else return s1.tok :: (← tokensF c fuel s1)

/-- All tokens up to (excluding) EOS; the fuel is sufficient by theorem `C01`. -/
def tokens (c : Cfg) (s : Sc) : R (List Tok) :=
  tokensF c (2 * (c.src.length - s.pos) + 2) s

end Html
