import Verif.Spec.Completion

/-!
# What proposals look like
-/

namespace Html.Spec
open Html

/-- The text of the documentation of an entry: its description, a blank line and its references (links in
Markdown, `name: url` lines otherwise). -/
def docText (markdown : Bool) (description : Option Description) (references : Option (List Reference)) : Str :=
  match description, (references.getD []) with
  | none, [] => []
  | none, r :: rs => refsText (r :: rs)
  | some (.str x), rs => joined x rs
  | some (.markup x), rs => joined x rs
where
  /-- All references. -/
  refsText : List Reference → Str
    | [] => []
    | [r] => ref r
    | r :: rs => ref r ++ (if markdown then b!" | " else b!"\n") ++ refsText rs
  /-- One reference. -/
  ref (r : Reference) : Str :=
    if markdown then b!"[" ++ r.name ++ b!"](" ++ r.url ++ b!")" else r.name ++ b!": " ++ r.url
  /-- A description with references. -/
  joined (x : Str) (rs : List Reference) : Str :=
    if x = [] ∨ rs = [] then x ++ refsText rs else x ++ b!"\n\n" ++ refsText rs

/-- The documentation of an entry, unless there is nothing to show. -/
def entryDoc (markdown : Bool) (description : Option Description) (references : Option (List Reference)) :
    Option ItemDoc :=
  if docText markdown description references = [] then none
  else some (.markup ⟨markdown, docText markdown description references⟩)

/-- A text that is inserted as it is. -/
def Inserts (i : CompItem) (text : Str) : Prop := i.snippet = some false ∧ ∃ range, i.textEdit = some ⟨range, text⟩

/-- A text with places (`$1`) for the cursor that is inserted. -/
def InsertsTemplate (i : CompItem) (text : Str) : Prop :=
  i.snippet = some true ∧ ∃ range, i.textEdit = some ⟨range, text⟩

/-- A tag that an enabled provider knows.  The documentation is always Markdown. -/
structure TagItem (e : CompEnv) (t : TagData) (i : CompItem) : Prop where
  known : t ∈ knownTags e
  label : i.label = t.name
  kind : i.kind = some .property
  documentation : i.documentation = entryDoc true t.description t.references
  filter : i.filterText = none
  text : Inserts i t.name
  command : i.suggest = false

/-- The end tag of a tag that an enabled provider knows.  There is no edit: the client inserts the label. -/
structure EndTagItem (e : CompEnv) (t : TagData) (i : CompItem) : Prop where
  known : t ∈ knownTags e
  label : i.label = b!"/" ++ t.name
  kind : i.kind = some .property
  documentation : i.documentation = entryDoc e.supportsMarkdown t.description t.references
  filter : i.filterText = none
  text : i.textEdit = none
  command : i.suggest = false

/-- An attribute that an enabled provider knows for an element.  A new completion is asked for exactly if a
value is left open that has a value set or is that of `style`. -/
structure AttrItem (e : CompEnv) (a : AttributeData) (i : CompItem) : Prop where
  known : ∃ tag o, Offers e (some tag) o a
  label : i.label = a.name
  kind : i.kind = some (if a.valueSet = some b!"handler" then .function else .value)
  documentation : i.documentation = entryDoc e.supportsMarkdown a.description a.references
  filter : i.filterText = none
  text : InsertsTemplate i a.name ∨ InsertsTemplate i (a.name ++ assignText e.settings) ∧ a.valueSet ≠ some b!"v"
  command : i.suggest = true ↔ InsertsTemplate i (a.name ++ assignText e.settings) ∧
    (a.valueSet ≠ none ∨ a.name = b!"style")

/-- An attribute that begins with `data-`. -/
structure DataItem (i : CompItem) : Prop where
  label : b!"data-" <+: i.label
  kind : i.kind = some .value
  documentation : i.documentation = none
  filter : i.filterText = none
  text : InsertsTemplate i (if i.label = b!"data-" then b!"data-$1=\"$2\"" else i.label ++ b!"=\"$1\"")
  command : i.suggest = false

/-- A value that an enabled provider knows for an attribute; the client filters by the text that is
inserted. -/
structure ValueItem (e : CompEnv) (v : ValueData) (i : CompItem) : Prop where
  known : ∃ tag attr, v ∈ knownValues e tag attr
  label : i.label = v.name
  kind : i.kind = some .unit
  documentation : i.documentation = entryDoc e.supportsMarkdown v.description v.references
  text : ∃ q, (q = [] ∨ q = b!"\"") ∧ Inserts i (q ++ v.name ++ q) ∧ i.filterText = some (q ++ v.name ++ q)
  command : i.suggest = false

/-- The end tag of an element, behind its `<`; the client filters by the indentation that is replaced, or the
label. -/
structure CloseItem (tag : Str) (i : CompItem) : Prop where
  label : i.label = b!"/" ++ tag
  kind : i.kind = some .property
  documentation : i.documentation = none
  text : ∃ gt, (gt = [] ∨ gt = b!">") ∧
    ((Inserts i (b!"/" ++ tag ++ gt) ∧ i.filterText = some (b!"/" ++ tag)) ∨
      ∃ si ei, Inserts i (si ++ b!"</" ++ tag ++ gt) ∧ i.filterText = some (ei ++ b!"</" ++ tag))
  command : i.suggest = false

/-- The end tag behind a start tag; the cursor stays in front of it. -/
structure AutoCloseItem (tag : Str) (i : CompItem) : Prop where
  label : i.label = b!"</" ++ tag ++ b!">"
  kind : i.kind = some .property
  documentation : i.documentation = none
  filter : i.filterText = some (b!"</" ++ tag ++ b!">")
  text : InsertsTemplate i (b!"$0</" ++ tag ++ b!">")
  command : i.suggest = false

/-- The document type. -/
structure DoctypeItem (i : CompItem) : Prop where
  label : i.label = b!"!DOCTYPE"
  kind : i.kind = some .property
  documentation : i.documentation = some (.str b!"A preamble for an HTML document.")
  filter : i.filterText = none
  text : Inserts i b!"!DOCTYPE html>"
  command : i.suggest = false

/-- A character reference (the documentation lacks the closing quote). -/
structure EntityItem (e : CompEnv) (name value : Str) (i : CompItem) : Prop where
  known : (name, value) ∈ e.entities ∧ b!";" <:+ name
  label : i.label = b!"&" ++ name
  kind : i.kind = some .keyword
  documentation : i.documentation = some (.str (b!"Character entity representing '" ++ value))
  filter : i.filterText = none
  text : Inserts i (b!"&" ++ name)
  command : i.suggest = false

/-- One of the proposals the library makes itself. -/
inductive Proposal (e : CompEnv) (i : CompItem) : Prop
  | tag (t) (h : TagItem e t i)
  | endTag (t) (h : EndTagItem e t i)
  | attribute (a) (h : AttrItem e a i)
  | data (h : DataItem i)
  | value (v) (h : ValueItem e v i)
  | close (tag) (h : CloseItem tag i)
  | autoClose (tag) (h : AutoCloseItem tag i)
  | doctype (h : DoctypeItem i)
  | entity (name value) (h : EntityItem e name value i)

/-- The element is void for the language of the document. -/
def VoidName (e : CompEnv) (tag : Str) : Prop :=
  ∃ p ∈ e.providers, p.isApplicable e.languageId = true ∧ ∃ t ∈ p.provideTags, t.void = some true ∧ t.name = tag

end Html.Spec
