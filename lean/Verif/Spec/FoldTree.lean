import Verif.Spec.Folding
import Verif.Spec.Tree

/-!
# Specification: folding ranges and the tree

What can be folded in a document, and which of it is.
-/

namespace Html.Spec
open Html

/-- Something that can be folded, with its offsets: a closed element, from its `<` to its end, or a
comment, from behind its `<!--` to its `-->`. -/
inductive Foldable
  | element (start stop : Nat)
  | comment (start stop : Nat)
deriving DecidableEq, Repr

/-- Where it ends. -/
def Foldable.stop : Foldable → Nat
  | .element _ b => b
  | .comment _ b => b

/-- The folding ranges so far with the first line of the last of them, and the next thing that can be
folded.  An element of at least three lines is folded without its last line, unless the last range
starts in the same line.  A comment of at least two lines always is folded. -/
def foldNext (d : TextDoc) (f : List Fold × Option Nat) : Foldable → List Fold × Option Nat
  | .element a b =>
    if (d.posAt (a + 1)).line + 1 < (d.posAt b).line ∧ f.2 ≠ some (d.posAt (a + 1)).line then
      (f.1 ++ [⟨(d.posAt (a + 1)).line, (d.posAt b).line - 1, none⟩], some (d.posAt (a + 1)).line)
    else f
  | .comment a b =>
    if (d.posAt a).line < (d.posAt (b + 3)).line then
      (f.1 ++ [⟨(d.posAt a).line, (d.posAt (b + 3)).line, some .comment⟩], some (d.posAt a).line)
    else f

/-- The folding ranges of things in the order of their ends. -/
def foldAll (d : TextDoc) (es : List Foldable) : List Fold := (es.foldl (foldNext d) ([], none)).1

/-- Every `<` and `</` that starts a tag is followed by the name of the tag. -/
def TagsNamed (ts : List Tok) : Prop :=
  ∀ pre t post, ts = pre ++ t :: post →
    (t.type = .StartTagOpen → ∃ n post', post = n :: post' ∧ n.type = .StartTag) ∧
    (t.type = .EndTagOpen → ∃ n post', post = n :: post' ∧ n.type = .EndTag)

/-- A start tag and an end tag of the same name, as the parser compares names, are written the same
way. -/
def NamesAgree (u : Uni) (cs : Bool) (src : Str) (ts : List Tok) : Prop :=
  ∀ a ∈ ts, ∀ b ∈ ts, a.type = .StartTag → b.type = .EndTag →
    SameName u cs (some (text src a)) (some (text src b)) → text src a = text src b

/-- The things that can be folded: the closed elements of the tree and the comments. -/
def CanFold (roots : List Node) (ts : List Tok) (e : Foldable) : Prop :=
  (∃ n, InForest roots n ∧ n.closed = true ∧ e = .element n.start n.stop) ∨
  (∃ t ∈ ts, t.type = .Comment ∧ e = .comment t.offset t.stop)

end Html.Spec
