import Verif.Model.Instructions
import Verif.Spec.Paths
/-
Specification vocabulary for directories.
-/
namespace Yot.Spec

/-- Below `n`, following the names `cs` (and no links), there is `m`. -/
inductive Reaches : FsNode → List Str → FsNode → Prop
  | here (n : FsNode) : Reaches n [] n
  | step {es : List (Str × FsNode)} {c : Str} {n m : FsNode} {cs : List Str} :
      (c, n) ∈ es → Reaches n cs m → Reaches (.dir es) (c :: cs) m

/-- Not a directory. -/
def NotDir : FsNode → Prop
  | .dir _ => False
  | _ => True

/-- The path ends with `.yaml` or `.yml`. -/
def YamlName (p : Str) : Prop := c!".yaml" <:+ p ∨ c!".yml" <:+ p

/-- All names in the tree are proper names, and distinct within a directory. -/
inductive WellNamed : FsNode → Prop
  | file : WellNamed .file
  | link (b : Option Bool) : WellNamed (.link b)
  | dir (es : List (Str × FsNode)) : (∀ e ∈ es, IsName e.1) → (es.map Prod.fst).Nodup →
      (∀ e ∈ es, WellNamed e.2) → WellNamed (.dir es)

/-- Looking up the entries of a directory by their paths gives the entries. -/
def Consistent (fs : Fs) : Prop :=
  ∀ p es c n, fs p = some (.dir es) → (c, n) ∈ es → fs (pathJoin [p, c]) = some n

/-- The root is a directory, and whatever exists lies in a directory. -/
structure TreeLike (fs : Fs) : Prop where
  root : isDirectory fs ['/'] = some true
  parent : ∀ p c, (∀ d ∈ p ++ [c], IsName d) → fs (absPath (p ++ [c])) ≠ none → isDirectory fs (absPath p) = some true

/-- The entry stands for a directory. -/
def IsDirEntry {O D : Type} (fs : Fs) (dir : Str) (y : Entry O D) : Prop :=
  y.path ≠ ['-'] ∧ isDirectory fs (resolvePath dir y.path) = some true

instance {O D : Type} (fs : Fs) (dir : Str) (y : Entry O D) : Decidable (IsDirEntry fs dir y) := by unfold IsDirEntry; infer_instance

/-- Standard input, an existing file, or a directory without a file name as its
outputPath. -/
def Acceptable {O D : Type} (fs : Fs) (dir : Str) (y : Entry O D) : Prop :=
  y.path = ['-'] ∨ isDirectory fs (resolvePath dir y.path) = some false ∨
  isDirectory fs (resolvePath dir y.path) = some true ∧ ¬ HasExt y.outputPath

/-- The files found below the directories among the entries. -/
def below {O D : Type} (fs : Fs) (dir : Str) (ys : List (Entry O D)) : List Str :=
  (ys.filter (fun y => IsDirEntry fs dir y)).flatMap (fun y => getFileNames fs (resolvePath dir y.path))

/-- An entry does not exist or is a directory with a file name as its outputPath, or a
file below a directory cannot be looked at (it is a link leading nowhere). -/
def Refused {O D : Type} (fs : Fs) (dir : Str) (ys : List (Entry O D)) : Prop :=
  (∃ y ∈ ys, ¬ Acceptable fs dir y) ∨ ∃ f ∈ below fs dir ys, isDirectory fs f = none

/-- A file below a directory is a directory after all: a link with a YAML name to one. -/
def LinkedDir {O D : Type} (fs : Fs) (dir : Str) (ys : List (Entry O D)) : Prop :=
  ∃ f ∈ below fs dir ys, isDirectory fs f = some true

/-- The entry with the path it is read from. -/
def located {O D : Type} (dir : Str) (y : Entry O D) : Entry O D :=
  if y.path = ['-'] then y else { y with path := resolvePath dir y.path }

/-- The directory of the instructions file: absolute, or unknown. -/
def DirKnown (dir : Str) : Prop := dir = [] ∨ isAbs dir = true

/-- The entries without directories: those that are no directories, in their order,
then for each directory entry, in order, an entry per file below it. -/
def expand {O D : Type} (fs : Fs) (dir : Str) (ys : List (Entry O D)) : List (Entry O D) :=
  (ys.filter (fun y => ¬ IsDirEntry fs dir y)).map (located dir) ++
  (ys.filter (fun y => IsDirEntry fs dir y)).flatMap
    (fun y => (getFileNames fs (resolvePath dir y.path)).map
      (fun f => { name := y.name, overlays := y.overlays, documents := y.documents, path := f,
                  outputPath := y.outputPath }))

/-- Every entry can be listed, and every file be read and decoded. -/
def FilesRead {O D : Type} (fs : Fs) (dir : Str) (read : Str → Option (List Node)) (ys : List (Entry O D)) : Prop :=
  ¬ Refused fs dir ys ∧ ¬ LinkedDir fs dir ys ∧ ∀ y ∈ expand fs dir ys, (read y.path).isSome

/-- Listing the files never comes to an end. -/
def Endless {O D : Type} (fs : Fs) (dir : Str) (ys : List (Entry O D)) : Prop :=
  ¬ Refused fs dir ys ∧ LinkedDir fs dir ys

end Yot.Spec
