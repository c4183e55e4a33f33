import Verif.Model.Service

/-!
# What has been set up in a session
-/

namespace Html.Spec
open Html

/-- The completion participants set last. -/
def latestCompletion (calls : List Call) : List CompletionPart :=
  ((calls.filterMap fun | .setCompletionParticipants ps => some ps | _ => none).getLast?).getD []

/-- The hover participants set last. -/
def latestHover (calls : List Call) : List HoverPart :=
  ((calls.filterMap fun | .setHoverParticipants ps => some ps | _ => none).getLast?).getD []

/-- The call creates a data manager. -/
def creates : Call → Bool
  | .createDataManager .. => true
  | _ => false

/-- How many data managers have been created. -/
def created (calls : List Call) : Nat := calls.countP creates

/-- The data manager number `m` was last given the providers `ps`, with or without the built-in data: when it was created
(as the one after `m` others) or later. -/
def Current (calls : List Call) (m : Nat) (builtIn : Bool) (ps : List Provider) : Prop :=
  ∃ before call after, calls = before ++ call :: after ∧
    ((∃ custom, call = .createDataManager builtIn custom ∧ ps = custom.getD [] ∧ created before = m) ∨
     (call = .setDataProviders m builtIn ps ∧ m < created before)) ∧
    ∀ b' ps', Call.setDataProviders m b' ps' ∉ after

/-- The call is a question. -/
def isQuestion : Call → Bool
  | .ask _ => true
  | _ => false

/-- A data manager with these providers. -/
def managerWith (c : CrateData) (cs builtIn : Bool) (ps : List Provider) : DataManager :=
  .new c.uni c.builtin builtIn (some ps) cs

/-- The data manager that a question names. -/
def managerOf : Question → Option Nat
  | .parse _ m | .complete _ _ _ _ m | .tagComplete _ _ _ m | .hover _ _ _ _ m | .links _ _ _ m | .folding _ _ m => some m
  | _ => none

/-- Questions for hover. -/
def isHover : Question → Bool
  | .hover .. => true
  | _ => false

/-- Questions for completion of any kind. -/
def isCompletion : Question → Bool
  | .complete .. | .quoteComplete .. | .tagComplete .. => true
  | _ => false

/-- What completion has to work with, after these calls, if its data manager was last given `ps`. -/
def completionSetup (c : CrateData) (o : ServiceOptions) (calls : List Call) (builtIn : Bool) (ps : List Provider)
    (d : Document) (p : Pos) (roots : List Node) (settings : Option CompletionConfig) : CompEnv where
  uni := c.uni
  caseSensitive := o.caseSensitive.getD false
  supportsMarkdown := doesSupportMarkdown o.caps
  participants := (latestCompletion calls).map (fun part => part d roots p)
  languageId := d.languageId
  providers :=
    (if builtIn then [(DataProvider.new b!"html5" c.builtin (o.caseSensitive.getD false)).toProvider c.uni] else []) ++ ps
  settings := settings
  entities := c.entities

end Html.Spec
