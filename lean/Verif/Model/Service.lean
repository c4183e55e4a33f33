import Verif.Model.Completion
import Verif.Model.Folding
import Verif.Model.Formatter
import Verif.Model.Hover
import Verif.Model.Links
import Verif.Model.SelectionRange
import Verif.Model.Symbols

/-!
# The language service

`HTMLLanguageService` (`/repo/src/html_language_service.rs`) with the data managers made by it, as a
state that calls change.

The client owns the values that the service hands out, so a call takes documents and trees as
arguments.  Data managers can be changed, so a session keeps them and calls refer to them by number.
Providers and participants are trait objects; it is assumed that they are pure.
-/

namespace Html

/-- The fixed data of the crate: the Unicode tables, `HTML_DATA_INSTANCE`, `html_entities::ENTITIES`, and the
texts that `Uri::from_str` accepts. -/
structure CrateData where
  uni : Uni
  builtin : HTMLData
  entities : HMap Str
  lib : UriLib

/-- `FullTextDocument` with its language. -/
structure Document where
  doc : TextDoc
  languageId : Str

/-- `HTMLLanguageServiceOptions`, html_language_types.rs 8-19 (the file system provider is never read). -/
structure ServiceOptions where
  caps : Option ClientCaps
  caseSensitive : Option Bool

/-- `Box<dyn ICompletionParticipant>`, participant.rs 6-9: the contexts hold the document, its tree and the position. -/
abbrev CompletionPart := Document → List Node → Pos → CompParticipant

/-- `Box<dyn IHoverParticipant>`, participant.rs 11-17. -/
abbrev HoverPart := Document → List Node → Pos → HoverParticipant

/-- `HTMLCompletion`, html_completion.rs 34-38. -/
structure CompletionService where
  supportsMarkdown : Bool
  participants : List CompletionPart
  caseSensitive : Bool

/-- `HTMLHover`, html_hover.rs 30-34. -/
structure HoverService where
  supportsMarkdown : Bool
  participants : List HoverPart
  caseSensitive : Bool

/-- `HTMLLanguageService`, html_language_service.rs 100-106. -/
structure Service where
  completion : CompletionService
  hover : HoverService
  caseSensitive : Bool

/-- `HTMLLanguageService::new`, html_language_service.rs 109-117, with html_completion.rs 41-47 and html_hover.rs
37-43. -/
def Service.new (o : ServiceOptions) : Service where
  completion := ⟨doesSupportMarkdown o.caps, [], o.caseSensitive.getD false⟩
  hover := ⟨doesSupportMarkdown o.caps, [], o.caseSensitive.getD false⟩
  caseSensitive := o.caseSensitive.getD false

/-- `create_scanner`, html_language_service.rs 119-127. -/
def Service.createScanner (c : CrateData) (s : Service) (input : Str) (initialOffset : Nat) : Cfg × Sc :=
  (⟨c.uni, input, false, s.caseSensitive⟩, .new initialOffset .WithinContent)

/-- The service and the data managers made so far. -/
structure Session where
  service : Service
  managers : List DataManager

/-- Questions to the service; `m` is the number of a data manager. -/
inductive Question
  | parse (d : Document) (m : Nat)
  | complete (d : Document) (position : Pos) (roots : List Node) (settings : Option CompletionConfig) (m : Nat)
  | quoteComplete (d : Document) (position : Pos) (roots : List Node) (settings : Option CompletionConfig)
  | tagComplete (d : Document) (position : Pos) (roots : List Node) (m : Nat)
  | hover (d : Document) (position : Pos) (roots : List Node) (options : Option (Bool × Bool)) (m : Nat)
  | format (d : Document) (range : Option Range) (options : FormatOptions)
  | highlights (d : Document) (position : Pos) (roots : List Node)
  | links (uri : Str) (d : Document) (resolve : Str → Str → R (Option Str)) (m : Nat)
  | symbols (d : Document) (roots : List Node)
  | symbols2 (d : Document) (roots : List Node)
  | folding (d : Document) (limit : Option Nat) (m : Nat)
  | selection (d : Document) (positions : List Pos) (roots : List Node)
  | rename (d : Document) (position : Pos) (newName : Str) (roots : List Node)
  | matching (d : Document) (position : Pos) (roots : List Node)
  | linked (d : Document) (position : Pos) (roots : List Node)

/-- Answers of the service. -/
inductive Answer
  | tree (roots : List Node)
  | items (items : List CompItem)
  | text (t : Option Str)
  | hover (h : Option Hover)
  | edits (es : List TextEdit)
  | ranges (rs : List Range)
  | links (ls : List DocLink)
  | symbols (ss : List FlatSymbol)
  | symbols2 (ss : List Symbol)
  | folds (fs : List Fold)
  | selections (ss : List SelRange)
  | renaming (es : Option (List TextEdit))
  | position (p : Option Pos)
  | linked (rs : Option (List Range))

/-- What completion depends on, html_language_service.rs 151-204; quote completion gets no data manager. -/
def Service.compEnv (c : CrateData) (s : Service) (d : Document) (position : Pos) (roots : List Node)
    (settings : Option CompletionConfig) (providers : List Provider) : CompEnv :=
  ⟨c.uni, s.completion.caseSensitive, s.completion.supportsMarkdown,
    s.completion.participants.map (fun p => p d roots position), d.languageId, providers, settings, c.entities⟩

/-- What hover depends on, html_language_service.rs 208-218, html_hover.rs 79-86. -/
def Service.hoverEnv (c : CrateData) (s : Service) (d : Document) (position : Pos) (roots : List Node)
    (options : Option (Bool × Bool)) (providers : List Provider) : HoverEnv :=
  ⟨c.uni, s.hover.caseSensitive, s.hover.supportsMarkdown, s.hover.participants.map (fun p => p d roots position),
    d.languageId, providers, (options.getD (true, true)).1, (options.getD (true, true)).2, c.entities⟩

/-- `HTMLDataManager::default()`, data_manager.rs 101-105. -/
def DataManager.default (c : CrateData) : DataManager := .new c.uni c.builtin true none false

/-- The answer to a question, html_language_service.rs 141-350; `none` if there is no such data manager. -/
def Session.answer (c : CrateData) (s : Session) : Question → Option (R Answer)
  | .parse d m => do
    let mgr ← s.managers[m]?
    pure (.tree <$> Html.parse c.uni s.service.caseSensitive (mgr.getVoidElements d.languageId) d.doc.text)
  | .complete d position roots settings m => do
    let mgr ← s.managers[m]?
    pure (.items <$> doComplete (s.service.compEnv c d position roots settings mgr.providers) d.doc position roots)
  | .quoteComplete d position roots settings =>
    some (.text <$> doQuoteComplete (s.service.compEnv c d position roots settings []) d.doc position roots)
  | .tagComplete d position roots m => do
    let mgr ← s.managers[m]?
    pure (.text <$> doTagComplete (s.service.compEnv c d position roots none mgr.providers) d.doc position roots)
  | .hover d position roots options m => do
    let mgr ← s.managers[m]?
    pure (.hover <$> doHover (s.service.hoverEnv c d position roots options mgr.providers) d.doc position roots)
  | .format d range options =>
    some (.edits <$> Html.format c.uni s.service.caseSensitive ((DataManager.default c).getVoidElements b!"html")
      options d.doc range)
  | .highlights d position roots =>
    some (.ranges <$> findDocumentHighlights c.uni s.service.caseSensitive d.doc position roots)
  | .links uri d resolve m => do
    let _ ← s.managers[m]?
    pure (.links <$> findDocumentLinks ⟨c.uni, s.service.caseSensitive, c.lib, uri, resolve⟩ d.doc)
  | .symbols d roots => some (.ok (.symbols (findDocumentSymbols d.doc roots)))
  | .symbols2 d roots => some (.ok (.symbols2 (findDocumentSymbols2 d.doc roots)))
  | .folding d limit m => do
    let mgr ← s.managers[m]?
    pure (.folds <$> getFoldingRanges c.uni s.service.caseSensitive (mgr.getVoidElements d.languageId) d.doc limit)
  | .selection d positions roots =>
    some (.selections <$> getSelectionRanges c.uni s.service.caseSensitive d.doc roots positions)
  | .rename d position newName roots => some (.ok (.renaming (doRename d.doc position newName roots)))
  | .matching d position roots => some (.ok (.position (findMatchingTagPosition d.doc position roots)))
  | .linked d position roots => some (.ok (.linked (findLinkedEditingRanges d.doc position roots)))

/-- The calls a client can make. -/
inductive Call
  | setCompletionParticipants (ps : List CompletionPart)
  | setHoverParticipants (ps : List HoverPart)
  | createDataManager (builtIn : Bool) (custom : Option (List Provider))
  | setDataProviders (m : Nat) (builtIn : Bool) (ps : List Provider)
  | ask (q : Question)

/-- The effect of a call: html_language_service.rs 172-178 (html_completion.rs 49-54), 222-224 (html_hover.rs 45-47),
129-139, data_manager.rs 37-51; questions take `&self`. -/
def Session.after (c : CrateData) (s : Session) : Call → Session
  | .setCompletionParticipants ps =>
    { s with service := { s.service with completion := { s.service.completion with participants := ps } } }
  | .setHoverParticipants ps =>
    { s with service := { s.service with hover := { s.service.hover with participants := ps } } }
  | .createDataManager builtIn custom =>
    { s with managers := s.managers ++ [.new c.uni c.builtin builtIn custom s.service.caseSensitive] }
  | .setDataProviders m builtIn ps =>
    { s with managers := s.managers.modify m (·.setDataProviders c.uni c.builtin builtIn ps) }
  | .ask _ => s

/-- The session after some calls. -/
def Session.run (c : CrateData) (o : ServiceOptions) (calls : List Call) : Session :=
  calls.foldl (Session.after c) ⟨.new o, []⟩

end Html
