import Verif.Model.GoPath
/-
Specification vocabulary for file paths: a path as the list of its names.
-/
namespace Yot.Spec

/-- A proper file name: not empty, not `.`, not `..`, without slash. -/
def IsName (c : Str) : Prop := c ≠ [] ∧ c ≠ ['.'] ∧ c ≠ ['.', '.'] ∧ '/' ∉ c

instance (c : Str) : Decidable (IsName c) := by unfold IsName; infer_instance

/-- The names separated by slashes. -/
def relPath : List Str → Str
  | [] => []
  | [c] => c
  | c :: d :: cs => c ++ '/' :: relPath (d :: cs)

/-- The absolute path with these names, e.g. `/a/b.yaml`. -/
def absPath (cs : List Str) : Str := '/' :: relPath cs

/-- The directory as a prefix of the paths below it: `/`, `/a/`, `/a/b/`. -/
def dirText (cs : List Str) : Str := '/' :: cs.flatMap (fun c => c ++ ['/'])

/-- `d` is a directory containing, directly or not, the file `p`. -/
def Below (d p : List Str) : Prop := ∃ r, r ≠ [] ∧ p = d ++ r

/-- The path `rel` seen from the directory `dir` (`.` is the working directory). -/
def under (dir rel : Str) : Str :=
  if dir = ['.'] then rel else if dir = ['/'] then '/' :: rel else dir ++ '/' :: rel

/-- The last element of the path has an extension. -/
def HasExt (s : Str) : Prop := ∃ a b, s = a ++ '.' :: b ∧ '/' ∉ b

/-- The absolute location of a path for a process working in `/cwd`. -/
def locate (cwd : List Str) (p : Str) : Str := if isAbs p then clean p else clean (absPath cwd ++ '/' :: p)

end Yot.Spec
