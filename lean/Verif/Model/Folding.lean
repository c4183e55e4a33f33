import Verif.Model.Scanner
import Verif.Model.TextDocument

/-!
# Folding ranges (`/repo/src/services/html_folding.rs`)
-/

namespace Html

/-- `lsp_types::FoldingRangeKind` (the kinds that are used). -/
inductive FoldKind
  | comment
  | region
deriving DecidableEq, Repr

/-- `lsp_types::FoldingRange` (the other fields are always the default). -/
structure Fold where
  startLine : Nat
  endLine : Nat
  kind : Option FoldKind
deriving DecidableEq, Repr

/-- There is a word character (`\w`) at the start of the text. -/
def wordAhead (u : Uni) (s : Str) : Bool := !s.isEmpty && isWordCP u (codePoint s)

/-- The first alternative of `REG_REGION`, html_folding.rs 14: `^\s*#(region\b)`. -/
def isRegionStart (u : Uni) (s : Str) : Bool :=
  let t := s.drop (runLen isSpaceCP s)
  (b!"#region").isPrefixOf t && !wordAhead u (t.drop 7)

/-- The second alternative of `REG_REGION`, html_folding.rs 14: `(endregion\b)`, anywhere in the
text. -/
def isRegionEnd (u : Uni) : Str → Bool
  | [] => false
  | b :: t => ((b!"endregion").isPrefixOf (b :: t) && !wordAhead u ((b :: t).drop 9)) || isRegionEnd u t

/-- The local variables of `get_folding_ranges`, html_folding.rs 32-35.  The stack is listed from
the top; `prevStart = none` is the initial `u32::MAX`. -/
structure FoldState where
  ranges : List Fold
  stack : List (Nat × Str)
  lastTag : Option Str
  prevStart : Option Nat
deriving DecidableEq, Repr

/-- The search for a stack entry from the top, html_folding.rs 55-64, 87-96: the line of the entry,
and the stack below it. -/
def popTo (p : Str → Bool) : List (Nat × Str) → Option (Nat × List (Nat × Str))
  | [] => none
  | (line, name) :: st => if p name then some (line, st) else popTo p st

/-- `StartTagClose | EndTagClose | StartTagSelfClose`, html_folding.rs 48-79. -/
def foldClose (d : TextDoc) (void : List Str) (f : FoldState) (t : Tok) : FoldState :=
  if t.type ≠ .StartTagClose ∨ f.lastTag.any (void.contains ·) then
    match popTo (fun name => some name == f.lastTag) f.stack with
    | none => f
    | some (startLine, stack) =>
      let line := (d.posAt t.stop).line
      if line > startLine + 1 ∧ f.prevStart ≠ some startLine then
        { f with stack, ranges := f.ranges ++ [⟨startLine, line - 1, none⟩], prevStart := some startLine }
      else { f with stack }
  else f

/-- `Comment`, html_folding.rs 80-126; `text` is the token text. -/
def foldComment (u : Uni) (d : TextDoc) (f : FoldState) (t : Tok) (text : Str) : FoldState :=
  let startLine := (d.posAt t.offset).line
  if isRegionStart u text then { f with stack := (startLine, []) :: f.stack }
  else if isRegionEnd u text then
    match popTo (·.isEmpty) f.stack with
    | none => f
    | some (line, stack) =>
      if startLine > line ∧ f.prevStart ≠ some line then
        { f with stack, ranges := f.ranges ++ [⟨line, startLine, some .region⟩], prevStart := some line }
      else { f with stack }
  else
    let endLine := (d.posAt (t.stop + 3)).line
    if startLine < endLine then
      { f with ranges := f.ranges ++ [⟨startLine, endLine, some .comment⟩], prevStart := some startLine }
    else f

/-- One token, html_folding.rs 38-128. -/
def foldStep (u : Uni) (d : TextDoc) (void : List Str) (f : FoldState) (t : Tok) : R FoldState :=
  match t.type with
  | .StartTag => do
    let name ← sliceStr d.text t.offset t.stop
    .ok { f with stack := ((d.posAt t.offset).line, name) :: f.stack, lastTag := some name }
  | .EndTag => do
    let name ← sliceStr d.text t.offset t.stop
    .ok { f with lastTag := some name }
  | .StartTagClose => .ok (foldClose d void f t)
  | .EndTagClose => .ok (foldClose d void f t)
  | .StartTagSelfClose => .ok (foldClose d void f t)
  | .Comment => do
    let text ← sliceStr d.text t.offset t.stop
    .ok (foldComment u d f t text)
  | _ => .ok f

/-- The loop, html_folding.rs 31, 37-130 (fuel: one unit per token). -/
def foldLoop (c : Cfg) (d : TextDoc) (void : List Str) : Nat → FoldState → Sc → R FoldState
  | 0, _, _ => .error .fuel
  | fuel + 1, f, s => do
    let s1 ← scan c s
    if s1.tokenType = .EOS then .ok f
    else do
      let f1 ← foldStep c.uni d void f s1.tok
      foldLoop c d void fuel f1 s1

/-! ### Limit -/

/-- The order of `sort_by` in `limit_ranges`, html_folding.rs 141-148. -/
def Fold.le (a b : Fold) : Bool :=
  a.startLine < b.startLine || (a.startLine == b.startLine && a.endLine ≤ b.endLine)

/-- Insertion behind smaller and before equal ranges. -/
def insertFold (x : Fold) : List Fold → List Fold
  | [] => [x]
  | y :: l => if x.le y then x :: y :: l else y :: insertFold x l

/-- `sort_by` (stable). -/
def sortFolds (l : List Fold) : List Fold := l.foldr insertFold []

/-- The local variables of `limit_ranges`; `previous` is listed from the top. -/
structure LimitState where
  top : Option Fold
  previous : List Fold
  levels : List Nat
  counts : List Nat
deriving DecidableEq, Repr

/-- `set_nesting_level`, html_folding.rs 225-241 (`levels` never is longer than `index`). -/
def setLevel (index level : Nat) (s : LimitState) : LimitState :=
  { s with
    levels := s.levels ++ List.replicate (index - s.levels.length) 0 ++ [level],
    counts :=
      if level < 30 then
        let counts := s.counts ++ List.replicate (level + 1 - s.counts.length) 0
        counts.set level (counts.getD level 0 + 1)
      else s.counts }

/-- The loop that pops entries of `previous` that end before `entry`, html_folding.rs 174-180
(an entry that stays is popped and pushed again there). -/
def popEnded (entry : Fold) : List Fold → List Fold
  | [] => []
  | t :: p => if entry.startLine > t.endLine then popEnded entry p else t :: p

/-- One step of the loop over the sorted ranges, html_folding.rs 159-189. -/
def limitStep (i : Nat) (entry : Fold) (s : LimitState) : LimitState :=
  match s.top with
  | none => setLevel i 0 { s with top := some entry }
  | some top =>
    if entry.startLine > top.startLine then
      if entry.endLine ≤ top.endLine then
        setLevel i (top :: s.previous).length { s with previous := top :: s.previous, top := some entry }
      else if entry.startLine > top.endLine then
        let previous := popEnded entry s.previous
        setLevel i previous.length { s with previous, top := some entry }
      else s
    else s

/-- The loop, html_folding.rs 158-190. -/
def limitLoop : Nat → List Fold → LimitState → LimitState
  | _, [], s => s
  | i, e :: l, s => limitLoop (i + 1) l (limitStep i e s)

/-- `max_level` and `entries`, html_folding.rs 192-203. -/
def maxLevel (limit : Nat) : Nat → Nat → List Nat → Nat × Nat
  | _, entries, [] => (0, entries)
  | i, entries, n :: l =>
    if n > 0 then
      if n + entries > limit then (i, entries) else maxLevel limit (i + 1) (entries + n) l
    else maxLevel limit (i + 1) entries l

/-- The loop that selects the ranges, html_folding.rs 205-222; `levels` is what is left of
`nesting_levels`, so an empty list means an index out of bounds. -/
def pickFolds (limit maxLvl : Nat) : Nat → List Fold → List Nat → R (List Fold)
  | _, [], _ => .ok []
  | _, _ :: _, [] => .error .index
  | entries, r :: rs, l :: ls =>
    if l ≤ maxLvl then
      if l = maxLvl then do
        let tail ← pickFolds limit maxLvl (entries + 1) rs ls
        .ok (if entries < limit then r :: tail else tail)
      else do
        let tail ← pickFolds limit maxLvl entries rs ls
        .ok (r :: tail)
    else pickFolds limit maxLvl entries rs ls

/-- `limit_ranges`, html_folding.rs 140-223. -/
def limitRanges (ranges : List Fold) (limit : Nat) : R (List Fold) :=
  let sorted := sortFolds ranges
  let s := limitLoop 0 sorted ⟨none, [], [], []⟩
  let m := maxLevel limit 0 0 s.counts
  pickFolds limit m.1 m.2 sorted s.levels

/-- `get_folding_ranges`, html_folding.rs 17-138; `void` is `get_void_elements`. -/
def getFoldingRanges (u : Uni) (cs : Bool) (void : List Str) (d : TextDoc) (rangeLimit : Option Nat) :
    R (List Fold) := do
  let c : Cfg := ⟨u, d.text, false, cs⟩
  let f ← foldLoop c d void (2 * d.text.length + 2) ⟨[], [], none, none⟩ (.new 0 .WithinContent)
  match rangeLimit with
  | none => .ok f.ranges
  | some limit => if f.ranges.length > limit then limitRanges f.ranges limit else .ok f.ranges

end Html
