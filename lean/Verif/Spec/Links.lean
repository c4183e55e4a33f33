import Verif.Model.Links
import Verif.Spec.Tokens

/-!
# Specification: document links

Which attribute values are links, in terms of the tokens in front of them.
-/

namespace Html.Spec

/-- Every element of a list with the part of the list in front of it. -/
def splits {α : Type} : List α → List (List α × α)
  | [] => []
  | a :: l => ([], a) :: (splits l).map (fun p => (a :: p.1, p.2))

/-- The last token of the given type. -/
def lastOf (k : TT) (pre : List Tok) : Option Tok := (pre.filter (fun t => t.type = k)).getLast?

/-- The name in the last start tag. -/
def tagAt (e : LinkEnv) (src : Str) (pre : List Tok) : Option Str :=
  (lastOf .StartTag pre).map (fun t => e.name (text src t))

/-- The last attribute name. -/
def attrAt (e : LinkEnv) (src : Str) (pre : List Tok) : Option Str :=
  (lastOf .AttributeName pre).map (fun t => e.name (text src t))

/-- The token behind `pre` is the value of a path attribute. -/
def isPathValue (e : LinkEnv) (src : Str) (p : List Tok × Tok) : Bool :=
  p.2.type = .AttributeValue &&
    match tagAt e src p.1, attrAt e src p.1 with
    | some tag, some attr => isPathAttribute tag attr
    | _, _ => false

/-- The token behind `pre` is the value of an `id` attribute. -/
def isIdValue (e : LinkEnv) (src : Str) (p : List Tok × Tok) : Bool :=
  p.2.type = .AttributeValue && (tagAt e src p.1).isSome && attrAt e src p.1 = some b!"id"

/-- The token is the name of a `base` start tag. -/
def isBaseTag (e : LinkEnv) (src : Str) (t : Tok) : Bool :=
  t.type = .StartTag && e.name (text src t) = b!"base"

/-- A `base` start tag has been seen, and no path attribute value since. -/
def awaitsBase (e : LinkEnv) (src : Str) (pre : List Tok) : Prop :=
  ∃ p ∈ splits pre, isBaseTag e src p.2 = true ∧
    ∀ q ∈ splits pre, p.1.length < q.1.length → isPathValue e src q = false

instance (e : LinkEnv) (src : Str) (pre : List Tok) : Decidable (awaitsBase e src pre) := by
  unfold awaitsBase; infer_instance

/-- The value that is taken for the base: the first path attribute value behind a `base` start tag. -/
def baseValue (e : LinkEnv) (src : Str) (pre : List Tok) : Option (List Tok × Tok) :=
  (splits pre).find? (fun p => isPathValue e src p && p.1.any (isBaseTag e src))

/-- The base references are resolved against, if it is not the document. -/
def baseAt (e : LinkEnv) (src : Str) (pre : List Tok) : Option Str :=
  (baseValue e src pre).bind (fun p => (newBase e (text src p.2)).toOption)

/-- The value is enclosed in quotes. -/
def quoted (v : Str) : Bool :=
  2 ≤ v.length && v.head? = v.getLast? && (v.head? = some 39 || v.head? = some 34)

/-- The value without its quotes. -/
def bare (v : Str) : Str := if quoted v then v.tail.dropLast else v

/-- The range of a value without its quotes. -/
def valueRange (d : TextDoc) (t : Tok) : Range :=
  if quoted (text d.text t) then ⟨d.posAt (t.offset + 1), d.posAt (t.stop - 1)⟩
  else ⟨d.posAt t.offset, d.posAt t.stop⟩

/-- What a value refers to, before fragments are looked up: nothing (no link), or a link whose
target may be missing. -/
def refersTo (e : LinkEnv) (base : Option Str) (v : Str) : Option (Option Str) :=
  if validateRef e.uni (bare v) then
    match workspaceUrl e (bare v) base with
    | .ok (some url) => (cleanUri e.lib url e.uri).toOption
    | _ => none
  else none

/-- The link of an attribute value, before fragments are looked up. -/
def linkOf (e : LinkEnv) (d : TextDoc) (p : List Tok × Tok) : Option (Tok × Option Str) :=
  if isPathValue e d.text p ∧ ¬ awaitsBase e d.text p.1 then
    (refersTo e (baseAt e d.text p.1) (text d.text p.2)).map (fun x => (p.2, x))
  else none

/-- The offset of the last value of an `id` attribute that is `id`. -/
def idOffset (e : LinkEnv) (src : Str) (ts : List Tok) (id : Str) : Option Nat :=
  (((splits ts).filter (fun p => isIdValue e src p && bare (text src p.2) = id)).getLast?).map
    (fun p => p.2.offset)

/-- The URI of a position in the document. -/
def positionUri (uri : Str) (p : Pos) : Str :=
  uri ++ b!"#" ++ decimal (p.line + 1) ++ b!"," ++ decimal (p.character + 1)

/-- The number with the decimal digits `s`. -/
def numberOf (s : Str) : Nat := s.foldl (fun n b => 10 * n + (b - 48)) 0

/-- `s` writes the positive number `n`: decimal digits only, the first one not zero. -/
def Writes (s : Str) (n : Nat) : Prop :=
  (∀ b ∈ s, 48 ≤ b ∧ b ≤ 57) ∧ (∃ b r, s = b :: r ∧ b ≠ 48) ∧ numberOf s = n

/-- Targets inside the document: `uri#id` becomes the position of that id, or the document. -/
def finalTarget (e : LinkEnv) (d : TextDoc) (ts : List Tok) : Option Str → Option Str
  | none => none
  | some x =>
    if (e.uri ++ b!"#").isPrefixOf x then
      match idOffset e d.text ts (x.drop (e.uri.length + 1)) with
      | some o => some (slashes (positionUri e.uri (d.posAt o)))
      | none => some e.uri
    else some x

/-- The parser accepts what the code takes for granted: a file URI cut off at its last `?`, a file URI
without its fragment, and the URI of a position. -/
structure Forgiving (e : LinkEnv) : Prop where
  cut : ∀ s i, e.lib.valid s = true → (splitUri s).scheme = some b!"file" → lastQuestion s = some i →
    e.lib.valid (s.take i) = true
  file : ∀ s, e.lib.valid s = true → (splitUri s).scheme = some b!"file" →
    e.lib.valid (b!"file://" ++ (splitUri s).authority.getD [] ++ (splitUri s).path) = true
  position : ∀ p, e.lib.valid (slashes (positionUri e.uri p)) = true

/-- The value consists of an opening quote only. -/
def LoneQuote (v : Str) : Prop := v = b!"'" ∨ v = b!"\""

/-- The value is a reference that is handed to the document context: it contains a word character, is
no script, has no scheme, and is neither a fragment nor a reference to another host. -/
def IsRelative (e : LinkEnv) (v : Str) : Prop :=
  validateRef e.uni v = true ∧ isJavascript v = false ∧ schemaOf e.uni (trimStart v) = none ∧
    ¬ b!"#" <+: trimStart v ∧ ¬ b!"//" <+: trimStart v

/-- The document context panics. -/
def ResolvePanics (e : LinkEnv) (reference base : Str) : Prop := ∃ er, e.resolve reference base = .error er

/-- The attribute value makes the search for links panic: it is the lone quote of an `id` or of a path
attribute, or the document context panics when it is resolved - as the base of the document, or as a
relative reference. -/
def LinkPanics (e : LinkEnv) (src : Str) (p : List Tok × Tok) : Prop :=
  (isIdValue e src p = true ∧ LoneQuote (text src p.2)) ∨
  (isPathValue e src p = true ∧ awaitsBase e src p.1 ∧ baseValue e src p.1 = none ∧
    (LoneQuote (text src p.2) ∨ bare (text src p.2) ≠ [] ∧ ResolvePanics e (bare (text src p.2)) e.uri)) ∨
  (isPathValue e src p = true ∧ ¬ awaitsBase e src p.1 ∧
    (LoneQuote (text src p.2) ∨ IsRelative e (bare (text src p.2)) ∧
      ResolvePanics e (trimStart (bare (text src p.2))) ((baseAt e src p.1).getD e.uri)))

end Html.Spec
