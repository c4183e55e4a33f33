import Verif.Model.Scanner
import Verif.Model.TextDocument
import Verif.Model.LanguageFacts
import Verif.Model.Uri

/-!
# Document links (`/repo/src/services/html_links.rs`)
-/

namespace Html

/-- The arguments of `find_document_links` besides the document, html_links.rs 22-28.  The document
context is an arbitrary function, which may panic. -/
structure LinkEnv where
  uni : Uni
  caseSensitive : Bool
  lib : UriLib
  /-- the text of the document's URI -/
  uri : Str
  /-- `resolve_reference(reference, base)` of the document context -/
  resolve : Str → Str → R (Option Str)

/-- `lsp_types::DocumentLink` (`tooltip` and `data` are always `None`); the target is the text of the
URI. -/
structure DocLink where
  range : Range
  target : Option Str
deriving DecidableEq, Repr

/-- `normalize_ref`, html_links.rs 165-174. -/
def normalizeRef (url : Str) : R Str :=
  if url.length > 0 ∧ url.head? = url.getLast? ∧ (url.head? = some 39 ∨ url.head? = some 34) then
    sliceStr url 1 (url.length - 1)
  else .ok url

/-- There is a character of the class in the text. -/
def anyChar (p : Nat → Bool) : Str → Bool
  | [] => false
  | b :: t => (!isCont b && p (codePoint (b :: t))) || anyChar p t

/-- `validate_ref`, html_links.rs 176-181.  `REG_REF` (html_links.rs 15-17) starts with `\b` and
everything that follows one character other than blanks, brackets and angle brackets is optional:
it matches somewhere iff the text contains a word character. -/
def validateRef (u : Uni) (url : Str) : Bool := anyChar (isWordCP u) url

/-- A case-insensitive literal in lower-case letters at the head; the letter `s` also matches
`ſ` (U+017F). -/
def ciPrefix : Str → Str → Bool
  | [], _ => true
  | _ :: _, [] => false
  | l :: ls, b :: t =>
    if lowerByte b = l then ciPrefix ls t
    else if l = 115 ∧ b = 197 ∧ t.head? = some 191 then ciPrefix ls t.tail
    else false

/-- `str::trim_start`. -/
def trimStart (s : Str) : Str := s.drop (runLen isSpaceCP s)

/-- `REG_JAVASCRIPT`, html_links.rs 18: `(^\s*(?i)javascript\:)|([\n\r])`. -/
def isJavascript (s : Str) : Bool :=
  ciPrefix b!"javascript:" (trimStart s) || s.any (fun b => b == 10 || b == 13)

/-- The class `[\w\d+.-]`. -/
def schemaChar (u : Uni) (cp : Nat) : Bool := isWordCP u cp || cp == 43 || cp == 46 || cp == 45

/-- `REG_SCHEMA`, html_links.rs 19: `^(\w[\w\d+.-]*):`. -/
def schemaOf (u : Uni) (s : Str) : Option Str :=
  let n := firstRunLen (isWordCP u) (schemaChar u) s
  if n > 0 ∧ (s.drop n).head? = some 58 then some (s.take n) else none

/-- `get_workspace_url`, html_links.rs 183-228. -/
def workspaceUrl (e : LinkEnv) (value : Str) (base : Option Str) : R (Option Str) :=
  if isJavascript value then .ok none
  else
    let s := trimStart value
    match schemaOf e.uni s with
    | some schema =>
      let schema := toLower e.uni schema
      if schema = b!"http" ∨ schema = b!"https" ∨ schema = b!"file" then .ok (some s) else .ok none
    | none =>
      if (b!"#").isPrefixOf s then .ok (some (e.uri ++ s))
      else if (b!"//").isPrefixOf s then
        .ok (some ((if (b!"https://").isPrefixOf e.uri then b!"https" else b!"http") ++ b!":" ++ trimStart s))
      else e.resolve s (base.getD e.uri)

/-- The position of the last `?`. -/
def lastQuestion (s : Str) : Option Nat :=
  if 63 ∈ s then some (s.length - 1 - (s.reverse.takeWhile (· != 63)).length) else none

/-- The query of a file URI is dropped, html_links.rs 232-236. -/
def dropQuery (l : UriLib) (s : Str) : R Str :=
  if (splitUri s).scheme = some b!"file" ∧ (splitUri s).query.isSome then do
    let i ← unwrap (lastQuestion s)
    unwrap (l.create (s.take i))
  else .ok s

/-- The URI is the document's with a fragment, html_links.rs 240-243. -/
def isLocal (uri s : Str) : Bool := uri.isPrefixOf s && (s.drop uri.length).head? == some 35

/-- `validate_and_clean_uri`, html_links.rs 230-253. -/
def cleanUri (l : UriLib) (s uri : Str) : R (Option Str) :=
  match l.create s with
  | none => .ok none
  | some s0 => do
    let s1 ← dropQuery l s0
    if (splitUri s1).scheme = some b!"file" ∧ (splitUri s1).fragment.isSome ∧ ¬ isLocal uri s1 then do
      let t := b!"file://" ++ (splitUri s1).authority.getD [] ++ (splitUri s1).path
      let _ ← unwrap (l.parse t)
      .ok (some t)
    else do
      let t ← unwrap (l.create s1)
      .ok (some t)

/-- `end_offset -= 1` for a quoted value, html_links.rs 147-150. -/
def linkStop (quoted : Bool) (stop : Nat) : R Nat := if quoted then subU stop 1 else .ok stop

/-- `create_link`, html_links.rs 134-163. -/
def createLink (e : LinkEnv) (d : TextDoc) (value : Str) (start stop : Nat) (base : Option Str) :
    R (Option DocLink) := do
  let content ← normalizeRef value
  if validateRef e.uni content = false then .ok none
  else do
    let start' := if content.length < value.length then start + 1 else start
    let stop' ← linkStop (content.length < value.length) stop
    match ← workspaceUrl e content base with
    | none => .ok none
    | some url => do
      let target ← cleanUri e.lib url e.uri
      .ok (some ⟨⟨d.posAt start', d.posAt stop'⟩, target⟩)

/-- The local variables of `find_document_links`, html_links.rs 29, 37-41.  The most recent
insertion into `id_locations` is at the head. -/
structure LinkState where
  links : List DocLink
  lastAttr : Option Str
  lastTag : Option Str
  inBase : Bool
  base : Option Str
  ids : List (Str × Nat)
deriving DecidableEq, Repr

/-- The text of a name as it is compared, html_links.rs 47-51, 57-61. -/
def LinkEnv.name (e : LinkEnv) (s : Str) : Str := if e.caseSensitive then s else toLower e.uni s

/-- The base a value stands for, html_links.rs 84-91. -/
def newBase (e : LinkEnv) (value : Str) : R Str := do
  let b ← normalizeRef value
  if b.length > 0 then do
    match ← e.resolve b e.uri with
    | some x => .ok x
    | none => .ok b
  else .ok b

/-- The link of a path attribute, html_links.rs 69-82. -/
def pathLinks (e : LinkEnv) (d : TextDoc) (st : LinkState) (value : Str) (t : Tok) : R (List DocLink) :=
  if st.inBase then .ok st.links
  else do
    match ← createLink e d value t.offset t.stop st.base with
    | some l => .ok (st.links ++ [l])
    | none => .ok st.links

/-- The base of the document, html_links.rs 83-92. -/
def pathBase (e : LinkEnv) (st : LinkState) (value : Str) : R (Option Str) :=
  if st.inBase ∧ st.base = none then (newBase e value).map some else .ok st.base

/-- The value of a path attribute, html_links.rs 67-94. -/
def linkPath (e : LinkEnv) (d : TextDoc) (st : LinkState) (t : Tok) : R LinkState := do
  let value ← sliceStr d.text t.offset t.stop
  let links ← pathLinks e d st value t
  let base ← pathBase e st value
  .ok { st with links, base, inBase := false, lastAttr := none }

/-- The value of an `id` attribute, html_links.rs 95-99. -/
def linkId (d : TextDoc) (st : LinkState) (t : Tok) : R LinkState := do
  let text ← sliceStr d.text t.offset t.stop
  let id ← normalizeRef text
  .ok { st with ids := (id, t.offset) :: st.ids }

/-- The loop body of `find_document_links`, html_links.rs 45-103. -/
def linkStep (e : LinkEnv) (d : TextDoc) (st : LinkState) (t : Tok) : R LinkState :=
  match t.type with
  | .StartTag => do
    let text ← sliceStr d.text t.offset t.stop
    .ok { st with lastTag := some (e.name text), inBase := st.inBase || e.name text == b!"base" }
  | .AttributeName => do
    let text ← sliceStr d.text t.offset t.stop
    .ok { st with lastAttr := some (e.name text) }
  | .AttributeValue =>
    match st.lastTag, st.lastAttr with
    | some tag, some attr =>
      if isPathAttribute tag attr then linkPath e d st t
      else if attr = b!"id" then linkId d st t
      else .ok st
    | _, _ => .ok st
  | _ => .ok st

/-- The loop, html_links.rs 43-105 (fuel: one unit per token). -/
def linkLoop (e : LinkEnv) (d : TextDoc) (c : Cfg) : Nat → LinkState → Sc → R LinkState
  | 0, _, _ => .error .fuel
  | fuel + 1, st, s => do
    let s1 ← scan c s
    if s1.tokenType = .EOS then .ok st
    else do
      let st1 ← linkStep e d st s1.tok
      linkLoop e d c fuel st1 s1

/-- The decimal digits of a number. -/
def decimal (n : Nat) : Str := (Nat.toDigits 10 n).map Char.toNat

/-- The second loop of `find_document_links`, html_links.rs 107-129. -/
def finishLink (e : LinkEnv) (d : TextDoc) (ids : List (Str × Nat)) (link : DocLink) : R DocLink :=
  match link.target with
  | none => .ok link
  | some target =>
    if (e.uri ++ b!"#").isPrefixOf target then
      match ids.lookup (target.drop (e.uri.length + 1)) with
      | some offset => do
        let pos := d.posAt offset
        let t ← unwrap (e.lib.create
          (e.uri ++ b!"#" ++ decimal (pos.line + 1) ++ b!"," ++ decimal (pos.character + 1)))
        .ok { link with target := some t }
      | none => .ok { link with target := some e.uri }
    else .ok link

/-- `find_document_links`, html_links.rs 22-132. -/
def findDocumentLinks (e : LinkEnv) (d : TextDoc) : R (List DocLink) := do
  let st ← linkLoop e d ⟨e.uni, d.text, false, e.caseSensitive⟩ (2 * d.text.length + 2)
    ⟨[], none, none, false, none, []⟩ (.new 0 .WithinContent)
  st.links.mapM (finishLink e d st.ids)

end Html
