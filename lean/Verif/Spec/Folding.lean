import Verif.Model.Folding
import Verif.Spec.Tokens
import Verif.Spec.Position

/-!
# Specification vocabulary for folding ranges
-/

namespace Html.Spec
open Html

/-- Name of the last start or end tag in a token list. -/
def lastName (src : Str) (ts : List Tok) : Option Str :=
  ((ts.filter (fun t => t.type = .StartTag ∨ t.type = .EndTag)).getLast?).map (text src)

/-- `b` is the end of the tag with the given name, and there is nothing to be expected behind this
tag that belongs to its element. -/
def EndsElement (void : List Str) (name : Str) (b : Tok) : Prop :=
  b.type = .EndTagClose ∨ b.type = .StartTagSelfClose ∨ (b.type = .StartTagClose ∧ name ∈ void)

/-- There is no word character (`\w`) at the start of the text. -/
def WordEnds (u : Uni) (r : Str) : Prop := r = [] ∨ isWordCP u (codePoint r) = false

/-- The text of a `#region` comment: white space, `#region`, end of the word. -/
def RegionStart (u : Uni) (x : Str) : Prop :=
  ∃ ws r, x = ws ++ b!"#region" ++ r ∧ ws.length = runLen isSpaceCP x ∧ WordEnds u r

/-- The text contains `endregion`, followed by the end of the word. -/
def RegionEnd (u : Uni) (x : Str) : Prop :=
  ∃ p r, x = p ++ b!"endregion" ++ r ∧ WordEnds u r

/-- The tokens `ts` of the document justify the folding range `r`. -/
def Justified (u : Uni) (d : TextDoc) (void : List Str) (ts : List Tok) (r : Fold) : Prop :=
  match r.kind with
  | none => ∃ pre a mid b post, ts = pre ++ a :: (mid ++ b :: post) ∧ a.type = .StartTag ∧
      EndsElement void (text d.text a) b ∧ lastName d.text (pre ++ a :: mid) = some (text d.text a) ∧
      r.startLine = (d.posAt a.offset).line ∧ r.endLine + 1 = (d.posAt b.stop).line
  | some .region => ∃ pre a mid b post, ts = pre ++ a :: (mid ++ b :: post) ∧ a.type = .Comment ∧
      b.type = .Comment ∧ RegionStart u (text d.text a) ∧ RegionEnd u (text d.text b) ∧
      r.startLine = (d.posAt a.offset).line ∧ r.endLine = (d.posAt b.offset).line
  | some .comment => ∃ a ∈ ts, a.type = .Comment ∧ ¬ RegionEnd u (text d.text a) ∧
      r.startLine = (d.posAt a.offset).line ∧ r.endLine = (d.posAt (a.stop + 3)).line

/-- `a` contains `b`. -/
def Contains (a b : Fold) : Prop := a.startLine < b.startLine ∧ b.endLine ≤ a.endLine

/-- `a` ends before `b` starts. -/
def Before (a b : Fold) : Prop := a.endLine < b.startLine

/-- Any two different ranges of the list are nested, with different first lines, or disjoint. -/
def WellNested (l : List Fold) : Prop :=
  (∀ a ∈ l, a.startLine ≤ a.endLine) ∧
  l.Pairwise (fun a b => Contains a b ∨ Contains b a ∨ Before a b ∨ Before b a)

instance (a b : Fold) : Decidable (Contains a b) := by unfold Contains; infer_instance
instance (a b : Fold) : Decidable (Before a b) := by unfold Before; infer_instance
instance (l : List Fold) : Decidable (WellNested l) := by unfold WellNested; infer_instance

/-- `sorted` lists the ranges by their first line, and those with the same first line by their last line. -/
def ByLines (all sorted : List Fold) : Prop :=
  sorted.Perm all ∧ sorted.Pairwise (fun a b => a.startLine < b.startLine ∨ (a.startLine = b.startLine ∧ a.endLine ≤ b.endLine))

/-- The ranges that a limit takes into account, `top` being the last of those before: each that is
inside the last one that is taken into account, or behind it. -/
def considered (top : Option Fold) : List Fold → List Fold
  | [] => []
  | e :: l => if ∀ t ∈ top, Contains t e ∨ Before t e then e :: considered (some e) l else considered top l

/-- Number of ranges in the list that contain `r`. -/
def depth (l : List Fold) (r : Fold) : Nat := (l.filter (fun a => Contains a r)).length

end Html.Spec

namespace Html.Spec
open Html

/-- A token that is neither part of the tag structure nor a region marker. -/
def Neutral (u : Uni) (src : Str) (t : Tok) : Prop :=
  t.type ≠ .StartTag ∧ t.type ≠ .EndTag ∧ t.type ≠ .StartTagClose ∧ t.type ≠ .EndTagClose ∧
  t.type ≠ .StartTagSelfClose ∧
  (t.type = .Comment → ¬ RegionStart u (text src t) ∧ ¬ RegionEnd u (text src t))

/-- The tokens from the name of a start tag to the end of the element, an empty one or one with an end
tag; `Bal` says what may be inside. -/
def ElementToks (u : Uni) (src : Str) (void : List Str) (Bal : List Tok → Prop) (l : List Tok) : Prop :=
  ∃ a as c, a.type = .StartTag ∧ (∀ t ∈ as, Neutral u src t) ∧
    ((l = a :: (as ++ [c]) ∧ (c.type = .StartTagSelfClose ∨ (c.type = .StartTagClose ∧ text src a ∈ void))) ∨
     (∃ body b bs e, l = a :: (as ++ c :: (body ++ b :: (bs ++ [e]))) ∧ c.type = .StartTagClose ∧
       text src a ∉ void ∧ Bal body ∧ b.type = .EndTag ∧ text src b = text src a ∧
       (∀ t ∈ bs, Neutral u src t) ∧ e.type = .EndTagClose))

/-- `a` and `b` are comments that start and end a region. -/
def RegionToks (u : Uni) (src : Str) (a b : Tok) : Prop :=
  a.type = .Comment ∧ RegionStart u (text src a) ∧ b.type = .Comment ∧ RegionEnd u (text src b) ∧
    ¬ RegionStart u (text src b)

/-- Tokens in which every start tag has its end tag, and every start of a region its end. -/
inductive Balanced (u : Uni) (src : Str) (void : List Str) : List Tok → Prop
  | nil : Balanced u src void []
  | skip {t : Tok} {ts : List Tok} : Neutral u src t → Balanced u src void ts → Balanced u src void (t :: ts)
  | empty {a c : Tok} {as ts : List Tok} : a.type = .StartTag → (∀ t ∈ as, Neutral u src t) →
      (c.type = .StartTagSelfClose ∨ (c.type = .StartTagClose ∧ text src a ∈ void)) →
      Balanced u src void ts → Balanced u src void (a :: (as ++ c :: ts))
  | pair {a b c e : Tok} {as bs body ts : List Tok} : a.type = .StartTag →
      (∀ t ∈ as, Neutral u src t) → c.type = .StartTagClose → text src a ∉ void →
      Balanced u src void body → b.type = .EndTag → text src b = text src a →
      (∀ t ∈ bs, Neutral u src t) → e.type = .EndTagClose → Balanced u src void ts →
      Balanced u src void (a :: (as ++ c :: (body ++ b :: (bs ++ e :: ts))))
  | region {a b : Tok} {body ts : List Tok} : RegionToks u src a b → Balanced u src void body →
      Balanced u src void ts → Balanced u src void (a :: (body ++ b :: ts))

end Html.Spec
