import Verif.Model.Hover
import Verif.Model.TagServices

/-!
# Completion

`/repo/src/services/html_completion.rs`.  The maps of attributes and entities that the code iterates
over have no defined order; here they are lists.
-/

namespace Html

/-- `Quotes`, html_completion.rs 1074-1079. -/
inductive Quotes
  | none | single | double
deriving DecidableEq, Repr

/-- `CompletionConfiguration`, html_completion.rs 1068-1072. -/
structure CompletionConfig where
  hideAutoComplete : Bool
  quotes : Quotes
  provider : HMap Bool

/-- The kinds of `CompletionItemKind` that occur. -/
inductive ItemKind
  | property | value | function | unit | keyword
deriving DecidableEq, Repr

/-- `lsp_types::Documentation`. -/
inductive ItemDoc
  | str (s : Str)
  | markup (m : Markup)
deriving DecidableEq, Repr

/-- The fields of `lsp_types::CompletionItem` that are set; `snippet` is the insert text format,
`suggest` the command that triggers a new completion. -/
structure CompItem where
  label : Str
  kind : Option ItemKind := .none
  documentation : Option ItemDoc := .none
  filterText : Option Str := .none
  textEdit : Option TextEdit := .none
  snippet : Option Bool := .none
  suggest : Bool := false
deriving DecidableEq, Repr

/-- The trait `ICompletionParticipant`, participant.rs 6-9, for one document and position. -/
structure CompParticipant where
  onAttributeValue : Str → Str → Str → Range → List CompItem
  onContent : List CompItem

/-- `HTMLCompletion`, html_completion.rs 34-38, with the data the answer depends on besides the
document. -/
structure CompEnv where
  uni : Uni
  caseSensitive : Bool
  supportsMarkdown : Bool
  participants : List CompParticipant
  languageId : Str
  providers : List Provider
  settings : Option CompletionConfig
  /-- `html_entities::ENTITIES` -/
  entities : HMap Str

/-- The scanner configuration, html_completion.rs 113-119, 346-352, 396-402, 425-431. -/
def CompEnv.cfg (e : CompEnv) (d : TextDoc) (emitPseudo : Bool) : Cfg :=
  ⟨e.uni, d.text, emitPseudo, e.caseSensitive⟩

/-- `void_elements`, html_completion.rs 81, 387. -/
def CompEnv.void (e : CompEnv) : List Str :=
  DataManager.getVoidElements ⟨e.providers, e.caseSensitive⟩ e.languageId

/-- `str::get` with a range. -/
def getStr (s : Str) (a b : Nat) : Option Str := (sliceStr s a b).toOption

/-! ### Quotes -/

/-- The configured quotes, html_completion.rs 327-331, 577-581. -/
def CompEnv.quotes (e : CompEnv) : Quotes :=
  match e.settings with
  | some c => c.quotes
  | .none => .double

/-- The loop of `do_quote_complete`, html_completion.rs 353-369; `s` is the scanner after a scan. -/
def quoteLoop (c : Cfg) (offset : Nat) (value : Str) : Nat → Sc → R (Option Str)
  | 0, _ => .error .fuel
  | fuel + 1, s =>
    if s.tokenType ≠ .EOS ∧ s.pos ≤ offset then
      if s.tokenType = .AttributeName ∧ s.pos = offset - 1 then do
        let s1 ← scan c s
        if s1.tokenType ≠ .DelimiterAssign then .ok .none
        else do
          let s2 ← scan c s1
          if s2.tokenType = .Unknown ∨ s2.tokenType = .AttributeValue then .ok .none else .ok (some value)
      else do
        let s1 ← scan c s
        quoteLoop c offset value fuel s1
    else .ok .none

/-- The text that is inserted, html_completion.rs 332-339. -/
def Quotes.pair : Quotes → Option Str
  | .none => .none
  | .double => some b!"\"$1\""
  | .single => some b!"'$1'"

/-- The cursor is in front of the end tag, html_completion.rs 341-344, 391-394. -/
def beforeEnd (node : Node) (offset : Nat) : Bool :=
  node.start < offset && !(node.endTagStart.any (· ≤ offset))

/-- `do_quote_complete`, html_completion.rs 313-372. -/
def doQuoteComplete (e : CompEnv) (d : TextDoc) (position : Pos) (roots : List Node) : R (Option Str) :=
  let offset := d.offsetAt position
  if offset = 0 then .ok .none
  else if getStr d.text (offset - 1) offset ≠ some b!"=" then .ok .none
  else
    match e.quotes.pair with
    | .none => .ok .none
    | some value =>
      match findNodeBefore roots offset with
      | .none => .ok .none
      | some (node, _) =>
        if beforeEnd node offset then do
          let s ← scan (e.cfg d false) (.new node.start .WithinContent)
          quoteLoop (e.cfg d false) offset value (2 * d.text.length + 2) s
        else .ok .none

/-! ### Closing tags while typing -/

/-- A loop that looks for a token of a type that ends at the offset, html_completion.rs 403-409, 432-442; `s` is the scanner after a scan. -/
def endsAt (c : Cfg) (type : TT) (offset : Nat) : Nat → Sc → R Bool
  | 0, _ => .error .fuel
  | fuel + 1, s =>
    if s.tokenType ≠ .EOS ∧ s.pos ≤ offset then
      if s.tokenType = type ∧ s.pos = offset then .ok true
      else do
        let s1 ← scan c s
        endsAt c type offset fuel s1
    else .ok false

/-- `do_tag_complete` behind `>`, html_completion.rs 386-410. -/
def completeStart (e : CompEnv) (d : TextDoc) (offset : Nat) (roots : List Node) : R (Option Str) :=
  match findNodeBefore roots offset with
  | .none => .ok .none
  | some (node, _) =>
    match node.tag with
    | .none => .ok .none
    | some tag =>
      if !(isVoidElement tag e.void) && beforeEnd node offset then do
        let s ← scan (e.cfg d false) (.new node.start .WithinContent)
        let b ← endsAt (e.cfg d false) .StartTagClose offset (2 * d.text.length + 2) s
        .ok (if b then some (b!"$0</" ++ tag ++ b!">") else .none)
      else .ok .none

/-- The node is still open at the offset, html_completion.rs 415-418, 842-844. -/
def isOpen (offset : Nat) (n : Node) : Bool := !n.closed || n.endTagStart.any (offset < ·)

/-- The loop of html_completion.rs 414-423 and 833-878: the node or the innermost of its ancestors
that satisfies the condition (`parents` are the ancestors, outermost first). -/
def firstUp (p : Node → Bool) (node : Node) (parents : List Node) : Option Node :=
  (node :: parents.reverse).find? p

/-- `do_tag_complete` behind `/`, html_completion.rs 411-443. -/
def completeEnd (e : CompEnv) (d : TextDoc) (offset : Nat) (roots : List Node) : R (Option Str) :=
  match findNodeBefore roots offset with
  | .none => .ok .none
  | some (node, parents) =>
    match firstUp (isOpen offset) node parents with
    | .none => .ok .none
    | some n =>
      match n.tag with
      | .none => .ok .none
      | some tag => do
        let s ← scan (e.cfg d false) (.new n.start .WithinContent)
        let b ← endsAt (e.cfg d false) .EndTagOpen offset (2 * d.text.length + 2) s
        .ok (if b then
            some (if getStr d.text offset (offset + 1) ≠ some b!">" then tag ++ b!">" else tag)
          else .none)

/-- `do_tag_complete`, html_completion.rs 374-445. -/
def doTagComplete (e : CompEnv) (d : TextDoc) (position : Pos) (roots : List Node) : R (Option Str) :=
  let offset := d.offsetAt position
  if offset = 0 then .ok .none
  else if getStr d.text (offset - 1) offset = some b!">" then completeStart e d offset roots
  else if getStr d.text (offset - 1) offset = some b!"/" then completeEnd e d offset roots
  else .ok .none

/-! ### Proposals -/

/-- The providers that are asked, html_completion.rs 66-79. -/
def CompEnv.active (e : CompEnv) : List Provider :=
  e.providers.filter (fun p => p.isApplicable e.languageId &&
    (match e.settings with
      | .none => true
      | some c => (c.provider.find p.id).getD true))

/-- `CompletionContext`, html_completion.rs 461-478, without the current tag and attribute. -/
structure CompCtx where
  env : CompEnv
  doc : TextDoc
  position : Pos
  offset : Nat
  node : Node
  /-- outermost first -/
  parents : List Node
  roots : List Node

/-- `is_white_space` of a character of one byte, html_completion.rs 1029-1031. -/
def isWhite (s : Str) : Bool := s.all isSpaceCP

/-- `get_replace_range`, html_completion.rs 481-490. -/
def CompCtx.replaceRange (x : CompCtx) (start stop : Nat) : Range :=
  ⟨x.doc.posAt (min start x.offset), x.doc.posAt stop⟩

/-- `scan_next_for_end_pos`, html_completion.rs 492-506. -/
def CompCtx.nextEnd (x : CompCtx) (s : Sc) (type : TT) : R Nat :=
  if x.offset = s.pos then do
    let s1 ← scan (x.env.cfg x.doc true) s
    .ok (if s1.tokenType = type ∧ s1.tokenOffset = x.offset then s1.pos else x.offset)
  else .ok x.offset

/-- The documentation of an entry, html_completion.rs 517-532, 625-640, 782-797, 885-900. -/
def itemDoc (markdown : Bool) (description : Option Description) (references : Option (List Reference)) :
    Option ItemDoc :=
  (generateDocumentation description references ⟨true, true, markdown⟩).map .markup

/-- `collect_open_tag_suggestions`, html_completion.rs 513-546: always Markdown. -/
def CompCtx.openTags (x : CompCtx) (start stop : Nat) : List CompItem :=
  x.env.active.flatMap (fun p => p.provideTags.map (fun t =>
    { label := t.name, kind := some .property, documentation := itemDoc true t.description t.references,
      textEdit := some ⟨x.replaceRange start stop, t.name⟩, snippet := some false }))

/-- `is_followed_by`, html_completion.rs 1037-1050: the first token that is no white space; `s` is the
scanner before a scan. -/
def followedBy (c : Cfg) (type : TT) : Nat → Sc → R Bool
  | 0, _ => .error .fuel
  | fuel + 1, s => do
    let s1 ← scan c s
    if s1.tokenType = .Whitespace then followedBy c type fuel s1 else .ok (s1.tokenType = type)

/-- `is_followed_by` on the text of the document. -/
def CompCtx.isFollowedBy (x : CompCtx) (offset : Nat) (state : SS) (type : TT) : R Bool :=
  followedBy (x.env.cfg x.doc false) type (2 * x.doc.text.length + 2) (.new offset state)

/-- The loop of `get_line_indent`, html_completion.rs 1012-1025. -/
def lineIndent (text : Str) (offset : Nat) : Nat → R (Option Str)
  | 0 => do
    let s ← sliceStr text 0 offset
    .ok (some s)
  | start + 1 =>
    match getStr text start (start + 1) with
    | .none => lineIndent text offset start
    | some c =>
      if c = [10] then do
        let s ← sliceStr text (start + 1) offset
        .ok (some s)
      else if isWhite c then lineIndent text offset start
      else .ok .none

/-- `get_line_indent`, html_completion.rs 1011-1026. -/
def getLineIndent (text : Str) (offset : Nat) : R (Option Str) := lineIndent text offset offset

/-- The item for closing a node, html_completion.rs 846-874. -/
def CompCtx.closeItem (x : CompCtx) (n : Node) (tag close : Str) (start stop : Nat) : R CompItem := do
  let startIndent ← getLineIndent x.doc.text n.start
  let before ← subU start 1
  let endIndent ← getLineIndent x.doc.text before
  match startIndent, endIndent with
  | some si, some ei =>
    if si ≠ ei then do
      let replace ← subU before ei.length
      .ok { label := b!"/" ++ tag, kind := some .property, filterText := some (ei ++ b!"</" ++ tag),
            textEdit := some ⟨x.replaceRange replace x.offset, si ++ b!"</" ++ tag ++ close⟩,
            snippet := some false }
    else
      .ok { label := b!"/" ++ tag, kind := some .property, filterText := some (b!"/" ++ tag),
            textEdit := some ⟨x.replaceRange start stop, b!"/" ++ tag ++ close⟩, snippet := some false }
  | _, _ =>
    .ok { label := b!"/" ++ tag, kind := some .property, filterText := some (b!"/" ++ tag),
          textEdit := some ⟨x.replaceRange start stop, b!"/" ++ tag ++ close⟩, snippet := some false }

/-- The node whose closing is proposed, html_completion.rs 833-844, 877. -/
def CompCtx.toClose (x : CompCtx) (inOpenTag : Bool) : Option Node :=
  let open? := fun n : Node => n.tag.isSome && isOpen x.offset n
  if inOpenTag then x.parents.reverse.find? open? else firstUp open? x.node x.parents

/-- The proposals of all end tags, html_completion.rs 883-908. -/
def CompCtx.endTags (x : CompCtx) : List CompItem :=
  x.env.active.flatMap (fun p => p.provideTags.map (fun t =>
    { label := b!"/" ++ t.name, kind := some .property,
      documentation := itemDoc x.env.supportsMarkdown t.description t.references }))

/-- `collect_close_tag_suggestions`, html_completion.rs 814-909. -/
def CompCtx.closeTags (x : CompCtx) (start : Nat) (inOpenTag : Bool) (stop : Nat) : R (List CompItem) := do
  let followed ← x.isFollowedBy stop .WithinEndTag .EndTagClose
  match x.toClose inOpenTag with
  | some n => do
    let item ← x.closeItem n (n.tag.getD []) (if followed then [] else b!">") start stop
    .ok [item]
  | .none => .ok (if inOpenTag then [] else x.endTags)

/-- `suggest_doctype`, html_completion.rs 986-1001. -/
def CompCtx.doctype (x : CompCtx) (start stop : Nat) : CompItem :=
  { label := b!"!DOCTYPE", kind := some .property,
    documentation := some (.str b!"A preamble for an HTML document."),
    textEdit := some ⟨x.replaceRange start stop, b!"!DOCTYPE html>"⟩, snippet := some false }

/-- `collect_tag_suggestions`, html_completion.rs 508-511. -/
def CompCtx.tags (x : CompCtx) (start stop : Nat) : R (List CompItem) := do
  let close ← x.closeTags start true stop
  .ok (x.openTags start stop ++ close)

/-- The proposal for an attribute, html_completion.rs 606-649; `value` is what follows the name. -/
def CompCtx.attrItem (x : CompCtx) (range : Range) (value : Str) (a : AttributeData) : CompItem :=
  let withValue := !(a.valueSet == some b!"v" || value.isEmpty)
  { label := a.name,
    kind := some (if a.valueSet = some b!"handler" then .function else .value),
    documentation := itemDoc x.env.supportsMarkdown a.description a.references,
    textEdit := some ⟨range, if withValue then a.name ++ value else a.name⟩,
    snippet := some true,
    suggest := withValue && (a.valueSet.isSome || a.name == b!"style") }

/-- The loop over the attributes of a provider, html_completion.rs 593-650, with the attributes that
exist already. -/
def CompCtx.attrItems (x : CompCtx) (range : Range) (value : Str) :
    List AttributeData → HMap Bool → List CompItem × HMap Bool
  | [], ex => ([], ex)
  | a :: as, ex =>
    if ex.find a.name = some true then x.attrItems range value as ex
    else
      let r := x.attrItems range value as ((a.name, true) :: ex)
      (x.attrItem range value a :: r.1, r.2)

/-- The loop over the providers, html_completion.rs 592-651. -/
def CompCtx.providerAttrs (x : CompCtx) (range : Range) (value : Str) (tag : Option Str) :
    List Provider → HMap Bool → R (List CompItem × HMap Bool)
  | [], ex => .ok ([], ex)
  | p :: ps, ex => do
    let tag' ← unwrap tag
    let r := x.attrItems range value (p.provideAttributes tag' x.offset) ex
    let q ← x.providerAttrs range value tag ps r.2
    .ok (r.1 ++ q.1, q.2)

/-- The loop over the attributes of a node, html_completion.rs 670-677. -/
def addDataNames (ex : HMap Bool) : List Str → HMap Str → HMap Str
  | [], m => m
  | a :: as, m =>
    addDataNames ex as
      (if (b!"data-").isPrefixOf a && (m.find a).isNone && (ex.find a).isNone then
        (a, a ++ b!"=\"$1\"") :: m
      else m)

mutual
/-- `add_node_data_attributes`, html_completion.rs 664-681. -/
def Node.addData (ex : HMap Bool) : Node → HMap Str → HMap Str
  | ⟨_, _, _, children, _, _, _, attrs⟩, m => Node.addDataAll ex children (addDataNames ex (attrs.map (·.1)) m)
/-- `add_node_data_attributes` for all nodes of a list. -/
def Node.addDataAll (ex : HMap Bool) : List Node → HMap Str → HMap Str
  | [], m => m
  | n :: l, m => Node.addDataAll ex l (n.addData ex m)
end

/-- `collect_data_attributes_suggestions`, html_completion.rs 655-699. -/
def CompCtx.dataItems (x : CompCtx) (range : Range) (ex : HMap Bool) : List CompItem :=
  (Node.addDataAll ex x.roots [(b!"data-", b!"data-$1=\"$2\"")]).map (fun a =>
    { label := a.1, kind := some .value, textEdit := some ⟨range, a.2⟩, snippet := some true })

/-- The end of the replaced text, html_completion.rs 554-562 (`fuel` is the number of bytes up to
`nameEnd`). -/
def replaceEnd (text : Str) : Nat → Nat → Nat
  | 0, i => i
  | fuel + 1, i => if (getStr text i (i + 1)).any (· ≠ b!"<") then replaceEnd text fuel (i + 1) else i

/-- What follows the name of an attribute, html_completion.rs 577-586. -/
def Quotes.assign : Quotes → Str
  | .none => b!"=$1"
  | .single => b!"='$1'"
  | .double => b!"=\"$1\""

/-- `collect_attribute_name_suggestions`, html_completion.rs 548-653. -/
def CompCtx.attrNames (x : CompCtx) (tag : Option Str) (start stop : Nat) : R (List CompItem) := do
  let stop' := replaceEnd x.doc.text (stop - x.offset) x.offset
  let current ← sliceStr x.doc.text (min start stop) (max start stop)
  let range := x.replaceRange start stop'
  let assigned ← x.isFollowedBy stop .AfterAttributeName .DelimiterAssign
  let ex : HMap Bool := (current, false) :: x.node.attributes.map (fun a => (a.1, true))
  let r ← x.providerAttrs range (if assigned then [] else x.env.quotes.assign) tag x.env.active ex
  .ok (r.1 ++ x.dataItems range r.2)

/-- `get_word_start`, html_completion.rs 1052-1058. -/
def wordStart (text : Str) (limit : Nat) : Nat → R Nat
  | 0 => .ok 0
  | o + 1 =>
    if limit < o + 1 then do
      let c ← sliceStr text o (o + 1)
      if isWhite c then .ok (o + 1) else wordStart text limit o
    else .ok (o + 1)

/-- `get_word_end`, html_completion.rs 1060-1066 (`fuel` is the number of bytes up to the limit). -/
def wordEnd (text : Str) : Nat → Nat → R Nat
  | 0, o => .ok o
  | fuel + 1, o => do
    let c ← sliceStr text o (o + 1)
    if isWhite c then .ok o else wordEnd text fuel (o + 1)

/-- The cursor is inside a quoted value, html_completion.rs 710-713. -/
def CompCtx.inQuotes (x : CompCtx) (start stop : Nat) : R Bool :=
  if start < x.offset ∧ x.offset ≤ stop then do
    let q ← sliceStr x.doc.text start (start + 1)
    .ok (q.all isQuote)
  else .ok false

/-- The end of the text inside the quotes, html_completion.rs 715-723. -/
def CompCtx.contentEnd (x : CompCtx) (start stop : Nat) : Nat :=
  if start < stop ∧ getStr x.doc.text (stop - 1) stop = getStr x.doc.text start (start + 1) then stop - 1 else stop

/-- The range, the text in front of the cursor and whether quotes are added, html_completion.rs 710-739. -/
def CompCtx.valueRange (x : CompCtx) (start stop : Nat) : R (Range × Str × Bool) := do
  let quoted ← x.inQuotes start stop
  if quoted then do
    let stop' := x.contentEnd start stop
    let before ← wordStart x.doc.text (start + 1) x.offset
    let after ← wordEnd x.doc.text (stop' - x.offset) x.offset
    let pre ← (if start + 1 ≤ x.offset ∧ x.offset < stop' then sliceStr x.doc.text (start + 1) x.offset else .ok [])
    .ok (x.replaceRange before after, pre, false)
  else do
    let pre ← sliceStr x.doc.text start x.offset
    .ok (x.replaceRange start stop, pre, true)

/-- The proposal for a value, html_completion.rs 776-809. -/
def CompCtx.valueItem (x : CompCtx) (range : Range) (addQuotes : Bool) (v : ValueData) : CompItem :=
  let text := if addQuotes then b!"\"" ++ v.name ++ b!"\"" else v.name
  { label := v.name, kind := some .unit,
    documentation := itemDoc x.env.supportsMarkdown v.description v.references,
    filterText := some text, textEdit := some ⟨range, text⟩, snippet := some false }

/-- A name as it is handed to participants, html_completion.rs 742-752. -/
def CompEnv.partName (e : CompEnv) (s : Str) : Str := if e.caseSensitive then s else toLower e.uni s

/-- `collect_attribute_value_suggestions`, html_completion.rs 701-812. -/
def CompCtx.attrValues (x : CompCtx) (tag : Option Str) (attr : Str) (start stop : Nat) : R (List CompItem) := do
  let r ← x.valueRange start stop
  .ok (x.env.participants.flatMap (fun p =>
      p.onAttributeValue (x.env.partName (tag.getD [])) (x.env.partName attr) r.2.1 (x.replaceRange start stop)) ++
    x.env.active.flatMap (fun p => (p.provideValues (tag.getD []) attr).map (x.valueItem r.1 r.2.2)))

/-- `collect_auto_close_tag_suggestion`, html_completion.rs 911-933. -/
def CompCtx.autoClose (x : CompCtx) (stop : Nat) (tag : Str) : List CompItem :=
  if x.env.settings.any (·.hideAutoComplete) then []
  else if isVoidElement tag x.env.void then []
  else
    [{ label := b!"</" ++ tag ++ b!">", kind := some .property, filterText := some (b!"</" ++ tag ++ b!">"),
       textEdit := some ⟨⟨x.doc.posAt stop, x.doc.posAt stop⟩, b!"$0</" ++ tag ++ b!">"⟩, snippet := some true }]

/-- The proposal for an entity, html_completion.rs 966-980. -/
def entityItem (range : Range) (x : Str × Str) : CompItem :=
  { label := b!"&" ++ x.1, kind := some .keyword,
    documentation := some (.str (b!"Character entity representing '" ++ x.2)),
    textEdit := some ⟨range, b!"&" ++ x.1⟩, snippet := some false }

/-- `collect_character_entity_proposals`, html_completion.rs 948-984: `character_start -= 1` can
underflow. -/
def CompCtx.entityItems (x : CompCtx) : R (List CompItem) := do
  let n := lettersBefore x.doc.text x.offset
  let start ← subU x.position.character n
  if 1 ≤ x.offset - n ∧ getStr x.doc.text (x.offset - n - 1) (x.offset - n) = some b!"&" then do
    let start' ← subU start 1
    .ok ((x.env.entities.filter (fun a => a.1.getLast? == some 59)).map
      (entityItem ⟨⟨x.position.line, start'⟩, x.position⟩))
  else .ok []

/-- `collect_inside_content`, html_completion.rs 935-946. -/
def CompCtx.insideContent (x : CompCtx) : R (List CompItem) := do
  let r ← x.entityItems
  .ok (x.env.participants.flatMap (·.onContent) ++ r)

/-- The search for the slash of an end tag, html_completion.rs 283-298. -/
def slashBefore (text : Str) : Nat → R (Option Nat)
  | 0 => .ok .none
  | start + 1 => do
    let c ← unwrap (getStr text (start + 1) (start + 2))
    if c = b!"/" then .ok (some (start + 1))
    else if isWhite c then slashBefore text start
    else .ok .none

/-! ### The answer for a token: `none` means that the loop goes on -/

/-- html_completion.rs 125-139. -/
def CompCtx.onStartTagOpen (x : CompCtx) (s : Sc) : R (Option (List CompItem)) :=
  if s.pos = x.offset then do
    let stop ← x.nextEnd s .StartTag
    let r ← x.tags x.offset stop
    .ok (some ((if x.position.line = 0 then [x.doctype x.offset stop] else []) ++ r))
  else .ok .none

/-- The cursor touches the token, html_completion.rs 141, 151, 178. -/
def CompCtx.touches (x : CompCtx) (s : Sc) : Bool := s.tokenOffset ≤ x.offset && x.offset ≤ s.pos

/-- html_completion.rs 140-149. -/
def CompCtx.onStartTag (x : CompCtx) (s : Sc) : R (Option (List CompItem)) :=
  .ok (if x.touches s then some (x.openTags s.tokenOffset s.pos) else .none)

/-- html_completion.rs 150-160. -/
def CompCtx.onAttributeName (x : CompCtx) (tag : Option Str) (s : Sc) : R (Option (List CompItem)) :=
  if x.touches s then do
    let r ← x.attrNames tag s.tokenOffset s.pos
    .ok (some r)
  else .ok .none

/-- html_completion.rs 161-176. -/
def CompCtx.onDelimiterAssign (x : CompCtx) (tag : Option Str) (attr : Str) (s : Sc) :
    R (Option (List CompItem)) :=
  if s.pos = x.offset then do
    let stop ← x.nextEnd s .AttributeValue
    let r ← x.attrValues tag attr x.offset stop
    .ok (some r)
  else .ok .none

/-- html_completion.rs 177-186. -/
def CompCtx.onAttributeValue (x : CompCtx) (tag : Option Str) (attr : Str) (s : Sc) :
    R (Option (List CompItem)) :=
  if x.touches s then do
    let r ← x.attrValues tag attr s.tokenOffset s.pos
    .ok (some r)
  else .ok .none

/-- html_completion.rs 187-245: the state is the one behind the white space. -/
def CompCtx.onWhitespace (x : CompCtx) (tag : Option Str) (attr : Str) (s : Sc) : R (Option (List CompItem)) :=
  if x.offset ≤ s.pos then
    match s.state with
    | .AfterOpeningStartTag => do
      let stop ← x.nextEnd s .StartTag
      let r ← x.tags s.tokenOffset stop
      .ok (some r)
    | .WithinTag => do
      let r ← x.attrNames tag s.pos x.offset
      .ok (some r)
    | .AfterAttributeName => do
      let r ← x.attrNames tag s.pos x.offset
      .ok (some r)
    | .BeforeAttributeValue => do
      let r ← x.attrValues tag attr s.pos x.offset
      .ok (some r)
    | .AfterOpeningEndTag => do
      let start ← subU s.tokenOffset 1
      let r ← x.closeTags start false x.offset
      .ok (some r)
    | .WithinContent => do
      let r ← x.insideContent
      .ok (some r)
    | _ => .ok .none
  else .ok .none

/-- html_completion.rs 246-256. -/
def CompCtx.onStartTagClose (x : CompCtx) (tag : Option Str) (s : Sc) : R (Option (List CompItem)) :=
  .ok (if x.offset ≤ s.pos then tag.map (x.autoClose s.pos) else .none)

/-- html_completion.rs 257-262. -/
def CompCtx.onContent (x : CompCtx) (s : Sc) : R (Option (List CompItem)) :=
  if x.offset ≤ s.pos then do
    let r ← x.insideContent
    .ok (some r)
  else .ok .none

/-- html_completion.rs 263-280. -/
def CompCtx.onEndTagOpen (x : CompCtx) (s : Sc) : R (Option (List CompItem)) :=
  if x.offset ≤ s.pos then do
    let stop ← x.nextEnd s .EndTag
    let r ← x.closeTags (s.tokenOffset + 1) false stop
    .ok (some r)
  else .ok .none

/-- html_completion.rs 281-300. -/
def CompCtx.onEndTag (x : CompCtx) (s : Sc) : R (Option (List CompItem)) :=
  if x.offset ≤ s.pos then do
    let start ← subU s.tokenOffset 1
    match ← slashBefore x.doc.text start with
    | some i => do
      let r ← x.closeTags i false s.pos
      .ok (some r)
    | .none => .ok .none
  else .ok .none

/-- The match of `do_complete`, html_completion.rs 124-306. -/
def CompCtx.onToken (x : CompCtx) (tag : Option Str) (attr : Str) (s : Sc) : R (Option (List CompItem)) :=
  match s.tokenType with
  | .StartTagOpen => x.onStartTagOpen s
  | .StartTag => x.onStartTag s
  | .AttributeName => x.onAttributeName tag s
  | .DelimiterAssign => x.onDelimiterAssign tag attr s
  | .AttributeValue => x.onAttributeValue tag attr s
  | .Whitespace => x.onWhitespace tag attr s
  | .StartTagClose => x.onStartTagClose tag s
  | .Content => x.onContent s
  | .EndTagOpen => x.onEndTagOpen s
  | .EndTag => x.onEndTag s
  | _ => .ok (if x.offset < s.pos then some [] else .none)

/-- `current_tag` behind a token, html_completion.rs 148. -/
def CompCtx.nextTag (x : CompCtx) (tag : Option Str) (s : Sc) : R (Option Str) :=
  if s.tokenType = .StartTag then do
    let t ← tokenText (x.env.cfg x.doc true) s
    .ok (some t)
  else .ok tag

/-- `current_attribute_name` behind a token, html_completion.rs 159. -/
def CompCtx.nextAttr (x : CompCtx) (attr : Str) (s : Sc) : R Str :=
  if s.tokenType = .AttributeName then tokenText (x.env.cfg x.doc true) s else .ok attr

/-- The loop of `do_complete`, html_completion.rs 123-308; `s` is the scanner after a scan. -/
def CompCtx.loop (x : CompCtx) : Nat → Option Str → Str → Sc → R (List CompItem)
  | 0, _, _, _ => .error .fuel
  | fuel + 1, tag, attr, s =>
    if s.tokenType ≠ .EOS ∧ s.tokenOffset < x.offset then do
      match ← x.onToken tag attr s with
      | some r => .ok r
      | .none => do
        let tag' ← x.nextTag tag s
        let attr' ← x.nextAttr attr s
        let s1 ← scan (x.env.cfg x.doc true) s
        x.loop fuel tag' attr' s1
    else .ok []

/-- `do_complete`, html_completion.rs 56-311. -/
def doComplete (e : CompEnv) (d : TextDoc) (position : Pos) (roots : List Node) : R (List CompItem) :=
  let offset := d.offsetAt position
  match findNodeBefore roots offset with
  | .none => .ok []
  | some (node, parents) => do
    let s ← scan (e.cfg d true) (.new node.start .WithinContent)
    CompCtx.loop ⟨e, d, position, offset, node, parents, roots⟩ (2 * d.text.length + 2) .none [] s

end Html
