import Verif.Model.Bytes

/-!
# URIs and the default document context

`/repo/src/utils/uri.rs` and `DefaultDocumentContext` in `/repo/src/html_language_types.rs`.

`lsp_types::Uri` keeps the text it was parsed from.  Which texts are accepted by `Uri::from_str` is
left open (`UriLib.valid`): the theorems hold for every answer.  An accepted text is split into its
parts as in RFC 3986, appendix B.
-/

namespace Html

/-- The parts of a URI reference. -/
structure UriParts where
  scheme : Option Str
  authority : Option Str
  path : Str
  query : Option Str
  fragment : Option Str
deriving DecidableEq, Repr

/-- Which texts `Uri::from_str` accepts. -/
structure UriLib where
  valid : Str → Bool

/-- `([^:/?#]+):` at the head: the scheme and the rest. -/
def splitScheme (s : Str) : Option Str × Str :=
  let p := s.takeWhile (fun b => b != 58 && b != 47 && b != 63 && b != 35)
  let r := s.dropWhile (fun b => b != 58 && b != 47 && b != 63 && b != 35)
  if !p.isEmpty && r.head? == some 58 then (some p, r.tail) else (none, s)

/-- `//([^/?#]*)` at the head: the authority and the rest. -/
def splitAuthority : Str → Option Str × Str
  | 47 :: 47 :: s =>
    (some (s.takeWhile (fun b => b != 47 && b != 63 && b != 35)),
      s.dropWhile (fun b => b != 47 && b != 63 && b != 35))
  | s => (none, s)

/-- `\?([^#]*)` at the head: the query and the rest. -/
def splitQuery : Str → Option Str × Str
  | 63 :: s => (some (s.takeWhile (· != 35)), s.dropWhile (· != 35))
  | s => (none, s)

/-- `#(.*)` at the head. -/
def splitFragment : Str → Option Str
  | 35 :: s => some s
  | _ => none

/-- RFC 3986, appendix B: `^(([^:/?#]+):)?(//([^/?#]*))?([^?#]*)(\?([^#]*))?(#(.*))?`. -/
def splitUri (s : Str) : UriParts :=
  let s1 := splitScheme s
  let s2 := splitAuthority s1.2
  let s3 := splitQuery (s2.2.dropWhile (fun b => b != 63 && b != 35))
  ⟨s1.1, s2.1, s2.2.takeWhile (fun b => b != 63 && b != 35), s3.1, splitFragment s3.2⟩

/-- `Uri::from_str`: the text of the URI is the text that was parsed. -/
def UriLib.parse (l : UriLib) (s : Str) : Option UriParts :=
  if l.valid s then some (splitUri s) else none

/-- `s.replace("\\", "/")`. -/
def slashes (s : Str) : Str := s.map (fun b => if b = 92 then 47 else b)

/-- `create_uri_from_str`, utils/uri.rs 5-12; the result is the text of the URI. -/
def UriLib.create (l : UriLib) (s : Str) : Option Str :=
  if l.valid (slashes s) then some (slashes s) else none

/-! ### `std::path` on Unix -/

/-- `std::path::Component`; there are no prefixes on Unix. -/
inductive Comp
  | root
  | cur
  | parent
  | normal (s : Str)
deriving DecidableEq, Repr

/-- The text between the slashes. -/
def splitSlash : Str → List Str
  | [] => [[]]
  | b :: t =>
    if b = 47 then [] :: splitSlash t
    else
      match splitSlash t with
      | [] => [[b]]
      | x :: l => (b :: x) :: l

/-- One piece between slashes as a component (empty pieces and `.` are skipped). -/
def segComp (s : Str) : Option Comp :=
  if s = [] ∨ s = b!"." then none else if s = b!".." then some .parent else some (.normal s)

/-- `Path::components`: only a leading `.` of a relative path is kept. -/
def components (p : Str) : List Comp :=
  if p.head? = some 47 then .root :: (splitSlash p.tail).filterMap segComp
  else if (splitSlash p).head? = some b!"." then .cur :: (splitSlash p).tail.filterMap segComp
  else (splitSlash p).filterMap segComp

/-- `PathBuf::pop`, on the components. -/
def popPath (l : List Comp) : List Comp := if l.getLast? = some .root then l else l.dropLast

/-- `base.join(path)`, on the components of `base`. -/
def joinPath (base : List Comp) (path : Str) : List Comp :=
  if path.head? = some 47 || base.isEmpty then components path
  else base ++ (components path).filter (· ≠ .cur)

/-- `PathBuf::push` of one component on the text of a path. -/
def pushComp (s : Str) : Comp → Str
  | .root => b!"/"
  | .cur => if s.isEmpty || s.getLast? = some 47 then s ++ b!"." else s ++ b!"/."
  | .parent => if s.isEmpty || s.getLast? = some 47 then s ++ b!".." else s ++ b!"/.."
  | .normal v => if s.isEmpty || s.getLast? = some 47 then s ++ v else s ++ 47 :: v

/-- `new_path.iter().collect::<PathBuf>()` and `to_string_lossy`, html_language_types.rs 153-154. -/
def pathText (l : List Comp) : Str := l.foldl pushComp []

/-! ### `DefaultDocumentContext::resolve_reference` -/

/-- `base_prefix`, html_language_types.rs 89-105: a drive like `c:` at the head of the base path. -/
def basePrefix : List Comp → Option Str
  | .root :: .normal v :: _ => if 58 ∈ v then some v else none
  | _ => none

/-- `add_prefx`, html_language_types.rs 110-114: the component behind the root is not a drive. -/
def addPrefix : List Comp → Bool
  | .normal v :: _ => !(v.contains 58)
  | _ => true

/-- The first component, html_language_types.rs 107-140. -/
def firstComp (pre : Option Str) : List Comp → List Comp
  | .root :: rest =>
    match pre with
    | some p => if addPrefix rest then [.root, .normal p] else [.root]
    | none => [.root]
  | .normal v :: _ =>
    match pre with
    | some p => [.root, .normal p, .normal v]
    | none => [.root, .normal v]
  | _ => []

/-- The body of the loop over the other components, html_language_types.rs 143-151. -/
def nextComp (acc : List Comp) : Comp → List Comp
  | .root => acc ++ [.root]
  | .cur => acc
  | .parent => acc.dropLast
  | .normal v => acc ++ [.normal v]

/-- `new_path`, html_language_types.rs 86-152. -/
def newPath (base path : List Comp) : List Comp :=
  path.tail.foldl nextComp (firstComp (basePrefix base) path)

/-- The base path, html_language_types.rs 75-78. -/
def baseDir (base path : Str) : List Comp :=
  if base.getLast? = some 47 then components path else popPath (components path)

/-- `suffix`, html_language_types.rs 81-85. -/
def refSuffix (reference : Str) : Str :=
  if reference.getLast? = some 47 ∨ reference.getLast? = some 46 then b!"/" else []

/-- `DefaultDocumentContext::resolve_reference`, html_language_types.rs 59-160 (on Unix). -/
def UriLib.resolveReference (l : UriLib) (reference base : Str) : R (Option Str) :=
  match l.parse reference with
  | none => .ok none
  | some uri => do
    let baseUri ← unwrap (l.parse base)
    if uri.scheme.isSome then .ok (some reference)
    else do
      let scheme ← unwrap baseUri.scheme
      let auth := match uri.authority with
        | some a => a
        | none => baseUri.authority.getD []
      let dir := baseDir base baseUri.path
      let path := newPath dir (joinPath dir uri.path)
      .ok (some (scheme ++ b!"://" ++ auth ++ pathText path ++ refSuffix reference))

end Html
