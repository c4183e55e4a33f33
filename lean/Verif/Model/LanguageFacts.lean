import Verif.Model.Bytes

/-!
# Language facts

The data manager, the data provider and the generated documentation
(`/repo/src/language_facts/data_manager.rs`, `data_provider.rs`,
`/repo/src/html_data.rs`, `/repo/src/utils/markup.rs`).
-/

namespace Html

/-- `Description`, html_data.rs 52-57.  The kind of a `MarkupContent` is never read. -/
inductive Description
  | str (s : Str)
  | markup (value : Str)
deriving DecidableEq, Repr

/-- `IReference`, html_data.rs 46-50. -/
structure Reference where
  name : Str
  url : Str
deriving DecidableEq, Repr

/-- `IValueData`, html_data.rs 39-44. -/
structure ValueData where
  name : Str
  description : Option Description
  references : Option (List Reference)
deriving DecidableEq, Repr

/-- `IAttributeData`, html_data.rs 23-31. -/
structure AttributeData where
  name : Str
  description : Option Description
  valueSet : Option Str
  values : Option (List ValueData)
  references : Option (List Reference)
deriving DecidableEq, Repr

/-- `ITagData`, html_data.rs 14-21. -/
structure TagData where
  name : Str
  description : Option Description
  attributes : List AttributeData
  references : Option (List Reference)
  void : Option Bool
deriving DecidableEq, Repr

/-- `IValueSet`, html_data.rs 33-37. -/
structure ValueSet where
  name : Str
  values : List ValueData
deriving DecidableEq, Repr

/-- `HTMLDataV1`, html_data.rs 4-12 (the version is never read). -/
structure HTMLData where
  tags : Option (List TagData)
  globalAttributes : Option (List AttributeData)
  valueSets : Option (List ValueSet)
deriving DecidableEq, Repr

/-- The trait `IHTMLDataProvider`, data_provider.rs 24-36.  Of the
`HTMLDataProviderContent` only the offset varies for one document. -/
structure Provider where
  id : Str
  isApplicable : Str → Bool
  provideTags : List TagData
  provideAttributes : Str → Nat → List AttributeData
  provideValues : Str → Str → List ValueData

/-- A `HashMap<String, β>`: the last insertion of a key is in front. -/
abbrev HMap (β : Type) := List (Str × β)

/-- `HashMap::get`. -/
def HMap.find {β : Type} (m : HMap β) (k : Str) : Option β :=
  match m with
  | [] => none
  | (k', v) :: t => if k' = k then some v else HMap.find t k

/-- The struct `HTMLDataProvider`, data_provider.rs 12-21. -/
structure DataProvider where
  id : Str
  tags : List TagData
  tagMap : HMap Nat
  globalAttributes : List AttributeData
  valueSetMap : HMap (List ValueData)
  caseSensitive : Bool

/-- The loop over `tags.iter().enumerate()`, data_provider.rs 47-51. -/
def tagMapFrom : Nat → List TagData → HMap Nat → HMap Nat
  | _, [], m => m
  | i, t :: ts, m => tagMapFrom (i + 1) ts ((t.name, i) :: m)

/-- `HTMLDataProvider::new`, data_provider.rs 45-69. -/
def DataProvider.new (id : Str) (data : HTMLData) (caseSensitive : Bool) : DataProvider where
  id := id
  tags := data.tags.getD []
  tagMap := tagMapFrom 0 (data.tags.getD []) []
  globalAttributes := data.globalAttributes.getD []
  valueSetMap := (data.valueSets.getD []).foldl (fun m vs => (vs.name, vs.values) :: m) []
  caseSensitive := caseSensitive

/-- The lower-casing of a query, data_provider.rs 92-96, 114-124. -/
def DataProvider.query (u : Uni) (p : DataProvider) (x : Str) : Str :=
  if p.caseSensitive then x else toLower u x

/-- The entry of a tag, data_provider.rs 97-99, 125-127: indexing with `[]` panics. -/
def DataProvider.entry (u : Uni) (p : DataProvider) (tag : Str) : R (Option TagData) :=
  match HMap.find p.tagMap (p.query u tag) with
  | none => .ok none
  | some i =>
    match p.tags[i]? with
    | some t => .ok (some t)
    | none => .error .index

/-- `provide_attributes`, data_provider.rs 85-109. -/
def DataProvider.provideAttributes (u : Uni) (p : DataProvider) (tag : Str) : R (List AttributeData) := do
  let e ← p.entry u tag
  .ok ((match e with
    | some t => t.attributes
    | none => []) ++ p.globalAttributes)

/-- The name comparison, data_provider.rs 129-133, 151-155: `attr` is the query. -/
def DataProvider.sameAttr (u : Uni) (p : DataProvider) (a : AttributeData) (attr : Str) : Bool :=
  (if p.caseSensitive then a.name else toLower u a.name) == attr

/-- The values of one matching attribute, data_provider.rs 134-145, 156-167. -/
def DataProvider.attrValues (p : DataProvider) (a : AttributeData) : List ValueData :=
  a.values.getD [] ++
  (match a.valueSet with
    | none => []
    | some vs => (HMap.find p.valueSetMap vs).getD [])

/-- The values of the matching attributes of a list, data_provider.rs 128-147, 150-169. -/
def DataProvider.valuesOf (u : Uni) (p : DataProvider) (attr : Str) : List AttributeData → List ValueData
  | [] => []
  | a :: as =>
    (if p.sameAttr u a attr then p.attrValues a else []) ++ p.valuesOf u attr as

/-- `provide_values`, data_provider.rs 111-173. -/
def DataProvider.provideValues (u : Uni) (p : DataProvider) (tag attr : Str) : R (List ValueData) := do
  let attr := p.query u attr
  let e ← p.entry u tag
  .ok ((match e with
    | some t => p.valuesOf u attr t.attributes
    | none => []) ++ p.valuesOf u attr p.globalAttributes)

/-! ### Documentation -/

/-- `GenerateDocumentationSetting`, data_provider.rs 227-231. -/
structure DocSetting where
  documentation : Bool
  references : Bool
  supportsMarkdown : Bool
deriving DecidableEq, Repr

/-- `MarkupContent` of lsp-types. -/
structure Markup where
  markdown : Bool
  value : Str
deriving DecidableEq, Repr

/-- `normalize_markup_content`, markup.rs 5-16: its value. -/
def Description.text : Description → Str
  | .str s => s
  | .markup v => v

/-- `[String]::join`. -/
def join (sep : Str) : List Str → Str
  | [] => []
  | [x] => x
  | x :: y :: t => x ++ sep ++ join sep (y :: t)

/-- The closures formatting one reference, data_provider.rs 203, 209. -/
def Reference.format (markdown : Bool) (r : Reference) : Str :=
  if markdown then b!"[" ++ r.name ++ b!"](" ++ r.url ++ b!")"
  else r.name ++ b!": " ++ r.url

/-- The description part, data_provider.rs 190-193. -/
def docDescription (description : Option Description) (s : DocSetting) : Str :=
  match description with
  | some d => if s.documentation then d.text else []
  | none => []

/-- The references appended to the value, data_provider.rs 195-213. -/
def docReferences (references : Option (List Reference)) (s : DocSetting) (value : Str) : Str :=
  match references with
  | none => value
  | some rs =>
    if rs.length > 0 ∧ s.references then
      (if value.length > 0 then value ++ b!"\n\n" else value) ++
        (if s.supportsMarkdown then join (b!" | ") (rs.map (·.format true))
          else join (b!"\n") (rs.map (·.format false)))
    else value

/-- `generate_documentation`, data_provider.rs 177-220. -/
def generateDocumentation (description : Option Description) (references : Option (List Reference))
    (s : DocSetting) : Option Markup :=
  let value := docReferences references s (docDescription description s)
  if value.length > 0 then some ⟨s.supportsMarkdown, value⟩ else none

/-! ### The data manager -/

/-- `HTMLDataManager`, data_manager.rs 14-17. -/
structure DataManager where
  providers : List Provider
  caseSensitive : Bool

/-- `Box<dyn IHTMLDataProvider>` of an `HTMLDataProvider`.  `provide_attributes` and
`provide_values` do not panic (`C45_no_panic`), so their results can be given as lists. -/
def DataProvider.toProvider (u : Uni) (p : DataProvider) : Provider where
  id := p.id
  isApplicable := fun _ => true
  provideTags := p.tags
  provideAttributes := fun tag _ => (p.provideAttributes u tag).toOption.getD []
  provideValues := fun tag attr => (p.provideValues u tag attr).toOption.getD []

/-- `set_data_providers`, data_manager.rs 37-51; `builtinData` is `HTML_DATA_INSTANCE`. -/
def DataManager.setDataProviders (u : Uni) (builtinData : HTMLData) (m : DataManager) (builtIn : Bool)
    (providers : List Provider) : DataManager :=
  { m with
    providers :=
      (if builtIn then
        [(DataProvider.new (b!"html5") builtinData m.caseSensitive).toProvider u]
      else []) ++ providers }

/-- `HTMLDataManager::new`, data_manager.rs 20-34. -/
def DataManager.new (u : Uni) (builtinData : HTMLData) (useDefault : Bool)
    (custom : Option (List Provider)) (caseSensitive : Bool) : DataManager :=
  DataManager.setDataProviders u builtinData ⟨[], caseSensitive⟩ useDefault (custom.getD [])

/-- The order of `String`s: bytes, lexicographically. -/
def strLe : Str → Str → Bool
  | [], _ => true
  | _ :: _, [] => false
  | a :: s, b :: t => if a < b then true else if b < a then false else strLe s t

/-- Insertion into a sorted vector. -/
def strInsert (x : Str) : List Str → List Str
  | [] => [x]
  | y :: t => if strLe x y then x :: y :: t else y :: strInsert x t

/-- `Vec<String>::sort` (equal strings are indistinguishable, so all sorting algorithms
agree). -/
def strSort : List Str → List Str
  | [] => []
  | x :: t => strInsert x (strSort t)

/-- The loop of `get_void_elements`, data_manager.rs 66-76. -/
def voidTags (languageId : Str) : List Provider → List Str
  | [] => []
  | p :: ps =>
    (if p.isApplicable languageId then
      (p.provideTags.filter (fun t => t.void == some true)).map (·.name)
    else []) ++ voidTags languageId ps

/-- `get_void_elements`, data_manager.rs 65-79. -/
def DataManager.getVoidElements (m : DataManager) (languageId : Str) : List Str :=
  strSort (voidTags languageId m.providers)

/-- `is_void_element`, data_manager.rs 60-62. -/
def isVoidElement (tag : Str) (voidElements : List Str) : Bool := voidElements.contains tag

/-- `PATH_TAG_AND_ATTR`, data_manager.rs 116-143. -/
def pathTagAndAttr : List (Str × List Str) :=
  [(b!"a", [b!"href"]), (b!"area", [b!"href"]), (b!"body", [b!"background"]),
   (b!"blockquote", [b!"cite"]), (b!"del", [b!"cite"]), (b!"form", [b!"action"]),
   (b!"frame", [b!"src", b!"longdesc"]), (b!"img", [b!"src", b!"longdesc"]),
   (b!"ins", [b!"cite"]), (b!"link", [b!"href"]), (b!"object", [b!"data"]),
   (b!"q", [b!"cite"]), (b!"script", [b!"src"]), (b!"audio", [b!"src"]),
   (b!"button", [b!"formaction"]), (b!"command", [b!"icon"]), (b!"embed", [b!"src"]),
   (b!"html", [b!"manifest"]), (b!"input", [b!"src", b!"formaction"]),
   (b!"source", [b!"src"]), (b!"track", [b!"src"]), (b!"video", [b!"src", b!"poster"])]

/-- `is_path_attribute`, data_manager.rs 81-98. -/
def isPathAttribute (tag attr : Str) : Bool :=
  if [b!"src", b!"href"].contains attr then true
  else
    match HMap.find pathTagAndAttr tag with
    | some attrs => attrs.contains attr
    | none => false

end Html
