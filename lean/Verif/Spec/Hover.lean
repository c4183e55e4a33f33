import Verif.Model.Hover
import Verif.Spec.SelectionRange
import Verif.Spec.LanguageFacts

/-!
# Specification vocabulary for hover
-/

namespace Html.Spec
open Html

/-- The cursor is in the token or at one of its ends. -/
def Touches (o : Nat) (t : Tok) : Prop := t.offset ≤ o ∧ o ≤ t.stop

/-- Moving over an ASCII character that is no line break moves one column on. -/
def Columns (d : TextDoc) : Prop :=
  ∀ o b, d.text[o]? = some b → b < 128 → b ≠ 10 → b ≠ 13 →
    d.posAt (o + 1) = ⟨(d.posAt o).line, (d.posAt o).character + 1⟩

/-- The cursor is on the name `[k, k + n)` of a character reference: letters and digits behind
an ampersand. -/
def EntityAt (text : Str) (o k n : Nat) : Prop :=
  0 < k ∧ text[k - 1]? = some 38 ∧ k ≤ o ∧ o ≤ k + n ∧
  (∀ i, k ≤ i → i < k + n → ∃ b, text[i]? = some b ∧ alnum b) ∧
  (∀ b, text[k + n]? = some b → ¬ alnum b)

/-- Two tag names are the same for a hover. -/
def SameTag (e : HoverEnv) (a b : Str) : Prop :=
  if e.caseSensitive then a = b else toLower e.uni a = toLower e.uni b

instance (e : HoverEnv) (a b : Str) : Decidable (SameTag e a b) := by unfold SameTag; infer_instance

/-- The documentation of an entry; Markdown only if the client supports it. -/
def docOf (e : HoverEnv) (description : Option Description) (references : Option (List Reference)) :
    Option Markup :=
  generateDocumentation description references ⟨e.documentation, e.references, e.supportsMarkdown⟩

/-- What a provider knows about a tag: its last entry of that name. -/
def knownTag (e : HoverEnv) (tag : Str) (p : Provider) : Option TagData :=
  (p.provideTags.filter (fun t => SameTag e t.name tag)).getLast?

/-- The answer for a tag name: the documentation by the first applicable provider that knows
the tag, possibly empty. -/
def tagAnswer (e : HoverEnv) (tag : Str) (range : Range) : Option Hover :=
  ((e.providers.filter (·.isApplicable e.languageId)).findSome? (knownTag e tag)).map fun t =>
    ⟨(docOf e t.description t.references).getD ⟨e.supportsMarkdown, []⟩, some range⟩

/-- The documentation by a provider for an attribute: that of the last entry of exactly this
name that has a description. -/
def attrDoc (e : HoverEnv) (tag attr : Str) (offset : Nat) (p : Provider) : Option Markup :=
  ((p.provideAttributes tag offset).filter (fun a => a.name = attr ∧ a.description ≠ none)).getLast?.bind
    fun a => docOf e a.description a.references

/-- The answer for an attribute name: the first documentation by an applicable provider. -/
def attrAnswer (e : HoverEnv) (tag attr : Str) (offset : Nat) (range : Range) : Option Hover :=
  ((e.providers.filter (·.isApplicable e.languageId)).findSome? (attrDoc e tag attr offset)).map
    (⟨·, some range⟩)

/-- The documentation by a provider for an attribute value: the first one among the entries of
exactly this name that have a description. -/
def valueDoc (e : HoverEnv) (tag attr value : Str) (p : Provider) : Option Markup :=
  ((p.provideValues tag attr).filter (fun v => v.name = value ∧ v.description ≠ none)).findSome?
    fun v => docOf e v.description v.references

/-- The answer for an attribute value: that of the first participant that has one, else the
first documentation by an applicable provider. -/
def valueAnswer (e : HoverEnv) (tag attr value : Str) (range : Range) : Option Hover :=
  (e.participants.findSome? (·.onAttributeValue tag attr value range)).or
    (((e.providers.filter (·.isApplicable e.languageId)).findSome? (valueDoc e tag attr value)).map
      (⟨·, some range⟩))

/-- The answer for a character reference: known from the table of entities, under the name with
a semicolon. -/
def entityAnswer (e : HoverEnv) (name : Str) (range : Range) : Option Hover :=
  ((e.entities.find? (fun x => x.1 = name ++ b!";")).map fun x =>
    ⟨⟨false, b!"Character entity representing '" ++ x.2 ++ b!"', unicode equivalent '" ++
      entityCode x.2 ++ b!"'"⟩, some range⟩)

/-- A value without its quotes. -/
def unquoted (x y : Str) : Prop :=
  (x = y ∧ x ≠ [] ∧ (∀ q, x.head? = some q → q ≠ 39 ∧ q ≠ 34) ∧ (∀ q, x.getLast? = some q → q ≠ 39 ∧ q ≠ 34)) ∨
  ∃ q, (q = 39 ∨ q = 34) ∧ x = q :: y ++ [q]

/-- The innermost element at the cursor. -/
structure Innermost (roots : List Node) (n : Node) (o : Nat) : Prop where
  mem : InForest roots n
  covers : Covers n o
  inner : ∀ k ∈ n.children, ¬ Covers k o

/-- The cursor is in front of the end tag, if there is one. -/
def BeforeEndTag (n : Node) (o : Nat) : Prop := ∀ a, n.endTagStart = some a → o < a

end Html.Spec
