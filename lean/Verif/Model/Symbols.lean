import Verif.Model.Document
import Verif.Model.TextDocument

/-!
# Document symbols (`/repo/src/services/html_symbols.rs`)
-/

namespace Html

/-- `lsp_types::DocumentSymbol`.  `selection` is `selection_range`; the kind is always FIELD,
`children` is always `Some`, the other fields are always `None`. -/
inductive Symbol
  | mk (name : Str) (range selection : Range) (children : List Symbol)
deriving Repr

def Symbol.name : Symbol → Str
  | .mk n _ _ _ => n
def Symbol.range : Symbol → Range
  | .mk _ r _ _ => r
def Symbol.selection : Symbol → Range
  | .mk _ _ s _ => s
def Symbol.children : Symbol → List Symbol
  | .mk _ _ _ c => c

/-- `lsp_types::SymbolInformation` (the URI is the one given, the kind FIELD). -/
structure FlatSymbol where
  name : Str
  range : Range
  container : Option Str
deriving DecidableEq, Repr

/-- `str::replace(c, "")` for one ASCII character. -/
def removeByte (c : Nat) (s : Str) : Str := s.filter (· != c)

/-- `char::is_ascii_whitespace` -/
def isAsciiWs (b : Nat) : Bool := b == 32 || b == 9 || b == 10 || b == 12 || b == 13

/-- `str::split_ascii_whitespace`; `cur` is the word read so far, reversed. -/
def splitWsGo : Str → Str → List Str
  | cur, [] => if cur = [] then [] else [cur.reverse]
  | cur, b :: t =>
    if isAsciiWs b then
      if cur = [] then splitWsGo [] t else cur.reverse :: splitWsGo [] t
    else splitWsGo (b :: cur) t

/-- `node_to_name`, html_symbols.rs 91-117. -/
def nodeToName (tag : Option Str) (attributes : List (Str × Attr)) : Str :=
  match tag with
  | none => b!"?"
  | some name =>
    if attributes.isEmpty then name
    else
      let id := (attrGet attributes b!"id").bind (·.value)
      let cls := (attrGet attributes b!"class").bind (·.value)
      let name := match id with
        | some id => name ++ (b!"#" ++ removeByte 39 (removeByte 34 id))
        | none => name
      match cls with
      | some cls => name ++
          ((splitWsGo [] (removeByte 39 (removeByte 34 cls))).map (fun w => b!"." ++ w)).flatten
      | none => name

mutual
/-- `provide_file_symbols_internal`, html_symbols.rs 34-64; `acc` is `symbols`. -/
def provideSymbols (d : TextDoc) : Node → List Symbol → List Symbol
  | ⟨tag, start, stop, children, _, _, _, attributes⟩, acc =>
    let range : Range := ⟨d.posAt start, d.posAt stop⟩
    acc ++ [.mk (nodeToName tag attributes) range range (provideSymbolsAll d children [])]
/-- The loops over `roots` and `children`, html_symbols.rs 27-29, 47-49. -/
def provideSymbolsAll (d : TextDoc) : List Node → List Symbol → List Symbol
  | [], acc => acc
  | n :: l, acc => provideSymbolsAll d l (provideSymbols d n acc)
end

/-- `find_document_symbols2`, html_symbols.rs 21-32. -/
def findDocumentSymbols2 (d : TextDoc) (roots : List Node) : List Symbol := provideSymbolsAll d roots []

mutual
/-- `walk`, html_symbols.rs 66-89; `acc` is `symbols`, `parent` the name of the parent. -/
def walk : Symbol → Option Str → List FlatSymbol → List FlatSymbol
  | .mk name range _ children, parent, acc => walkAll children (some name) (acc ++ [⟨name, range, parent⟩])
/-- The loops over the symbols, html_symbols.rs 14-16, 84-88. -/
def walkAll : List Symbol → Option Str → List FlatSymbol → List FlatSymbol
  | [], _, acc => acc
  | s :: l, parent, acc => walkAll l parent (walk s parent acc)
end

/-- `find_document_symbols`, html_symbols.rs 6-19. -/
def findDocumentSymbols (d : TextDoc) (roots : List Node) : List FlatSymbol :=
  walkAll (findDocumentSymbols2 d roots) none []

end Html
