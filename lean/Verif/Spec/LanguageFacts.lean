import Verif.Model.LanguageFacts

/-!
# Specification vocabulary for the language facts
-/

namespace Html
namespace Spec

/-- The last element of a list with the given name. -/
def lastNamed {α : Type} (name : α → Str) (l : List α) (x : Str) : Option α :=
  (l.filter (fun a => name a = x)).getLast?

/-- The names of the tags a provider marks as void. -/
def voidNames (p : Provider) : List Str :=
  (p.provideTags.filter (fun t => t.void = some true)).map (·.name)

/-- The attributes that hold paths on some elements only. -/
def pathPairs : List (Str × Str) :=
  [(b!"body", b!"background"), (b!"blockquote", b!"cite"), (b!"del", b!"cite"),
   (b!"form", b!"action"), (b!"frame", b!"longdesc"), (b!"img", b!"longdesc"),
   (b!"ins", b!"cite"), (b!"object", b!"data"), (b!"q", b!"cite"),
   (b!"button", b!"formaction"), (b!"command", b!"icon"), (b!"html", b!"manifest"),
   (b!"input", b!"formaction"), (b!"video", b!"poster")]

/-- The values an attribute entry stands for: its own ones, then those of the value set it
names (the last one defined with that name). -/
def valuesOfEntry (sets : List ValueSet) (a : AttributeData) : List ValueData :=
  a.values.getD [] ++
    match a.valueSet with
    | some vs => ((lastNamed (·.name) sets vs).map (·.values)).getD []
    | none => []

/-- The description that is to be shown. -/
def shownDescription (description : Option Description) (s : DocSetting) : Str :=
  match description, s.documentation with
  | some (.str x), true => x
  | some (.markup x), true => x
  | _, _ => []

/-- The references that are to be shown. -/
def shownReferences (references : Option (List Reference)) (s : DocSetting) : List Reference :=
  if s.references then references.getD [] else []

end Spec
end Html
