import Verif.Model.Uri

/-!
# Specification: resolving a reference

Segments, and the removal of `.` and `..` segments on a stack.
-/

namespace Html.Spec

/-- `.` and `..` -/
def DotSegment (s : Str) : Prop := s = b!"." ∨ s = b!".."

instance (s : Str) : Decidable (DotSegment s) := by unfold DotSegment; infer_instance

/-- The texts between the slashes of `path`. -/
def segments (path : Str) : List Str := splitSlash path

/-- Walk along the segments: empty segments and `.` stay, `..` goes up, anything else goes down.
`none` if the walk goes up beyond its start. -/
def walk : List Str → List Str → Option (List Str)
  | dir, [] => some dir
  | dir, s :: rest =>
    if s = [] ∨ s = b!"." then walk dir rest
    else if s = b!".." then (if dir = [] then none else walk dir.dropLast rest)
    else walk (dir ++ [s]) rest

/-- `/a/b` for the directory `[a, b]`; `/` for the top. -/
def pathOf (dir : List Str) : Str :=
  if dir = [] then b!"/" else (dir.map (fun s => 47 :: s)).flatten

/-- The segments the reference stands for: those of an absolute path, or the ones in front of the
last slash of the base followed by those of the relative path. -/
def target (basePath refPath : Str) : List Str :=
  if refPath.head? = some 47 then segments refPath
  else (segments basePath).dropLast ++ segments refPath

/-- The first segment that names something, if it looks like a drive (`c:`). -/
def drive (segs : List Str) : Option Str :=
  match segs.filter (fun s => s ≠ [] ∧ s ≠ b!".") with
  | s :: _ => if 58 ∈ s then some s else none
  | [] => none

/-- Where the walk starts: absolute paths without a drive of their own stay on the drive of the
base. -/
def start (basePath refPath : Str) : List Str :=
  if refPath.head? = some 47 ∧ drive (segments refPath) = none then
    (drive (segments basePath).dropLast).toList
  else []

end Html.Spec
