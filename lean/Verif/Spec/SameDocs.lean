import Verif.Spec.Items
import Verif.Spec.Hover

/-!
# The documentation in proposals and hovers
-/

namespace Html.Spec
open Html

/-- Completion and hover have the same data for the same language, and hover shows all of the documentation. -/
structure SameData (e : CompEnv) (e' : HoverEnv) : Prop where
  providers : e'.providers = e.providers
  language : e'.languageId = e.languageId
  documentation : e'.documentation = true
  references : e'.references = true

/-- The documentation in a hover, unless there is nothing to show. -/
def hoverDoc (markdown : Bool) (description : Option Description) (references : Option (List Reference)) : Option Markup :=
  if docText markdown description references = [] then none
  else some ⟨markdown, docText markdown description references⟩

end Html.Spec
