import Verif.Model.Process
import Verif.Spec.Process
/-
Which files matter to the program.
-/
namespace Yot.Spec
open Yot

/-- The paths at which the program looks for an input, when these paths are given: the given
paths themselves (`-` is standard input), and the files found under those that are directories. -/
inductive LooksAt (fs : Fs) (dir : Str) (given : Str → Prop) : Str → Prop
  | given (p : Str) : given p → p ≠ ['-'] → LooksAt fs dir given (resolvePath dir p)
  | found (p q : Str) : LooksAt fs dir given p → isDirectory fs p = some true → q ∈ getFileNames fs p →
      LooksAt fs dir given (resolvePath dir q)

/-- The paths that are given: those of the entries under `yamlFiles`, and `--path`. -/
def PathGiven (M : Machine) (p : Str) : Prop :=
  (∃ i y, InstructionsOf M i ∧ some y ∈ i.files ∧ y.path = p) ∨ (M.path ≠ [] ∧ M.path = p)

/-- The absolute paths of the files whose contents the program may read: the instructions, the values
files, and those files among the paths at which it looks for inputs. -/
inductive Reads (M : Machine) : Str → Prop
  | instructions : M.instructionsFile ≠ [] → Reads M (M.locate M.instructionsFile)
  | values (fs : List Str) (f : Str) : M.instructionsFile ≠ [] → M.valueFiles = some fs → f ∈ fs → f ≠ ['-'] → Reads M (M.locate f)
  | input (p : Str) : LooksAt M.fs M.dir (PathGiven M) p → isDirectory M.fs p = some false → Reads M (M.locate p)

/-- The names of the files whose contents the program may read. -/
inductive NamesRead (M : Machine) : Str → Prop
  | instructions : M.instructionsFile ≠ [] → NamesRead M M.instructionsFile
  | values (fs : List Str) (f : Str) : M.instructionsFile ≠ [] → M.valueFiles = some fs → f ∈ fs → f ≠ ['-'] → NamesRead M f
  | input (p : Str) : LooksAt M.fs M.dir (PathGiven M) p → isDirectory M.fs p = some false → NamesRead M p

/-- The same machine, as far as the program is concerned, with other files: they have the same
contents where the program reads, and there are the same files and directories where it looks. -/
structure SameWhereItMatters (M M' : Machine) : Prop where
  rest : ∃ d fs, M' = { M with disk := d, fs := fs }
  contents : ∀ l, Reads M l → M'.disk l = M.disk l
  tree : ∀ p, LooksAt M.fs M.dir (PathGiven M) p → M'.fs p = M.fs p

/-- The same machine started elsewhere, with other files: the names that it reads mean files with the same
contents, and there are the same files and directories where it looks. -/
structure SameFiles (M M' : Machine) : Prop where
  rest : ∃ d fs c, M' = { M with disk := d, fs := fs, cwd := c }
  dir : M'.dir = M.dir
  contents : ∀ f, NamesRead M f → M'.disk (M'.locate f) = M.disk (M.locate f)
  tree : ∀ p, LooksAt M.fs M.dir (PathGiven M) p → M'.fs p = M.fs p

/-- The same machine started in another directory; absolute paths mean what they meant before. -/
def StartedIn (M M' : Machine) : Prop :=
  ∃ c fs, M' = { M with cwd := c, fs := fs } ∧ ∀ p, isAbs p = true → fs p = M.fs p

/-- The names on the command line are absolute, or `-` (for values files and `--path`), or not given.
The paths in the instructions may be relative: to the directory of the instructions. -/
structure NamesAbsolute (M : Machine) : Prop where
  instructions : M.instructionsFile = [] ∨ isAbs M.instructionsFile = true
  values : ∀ fs, M.valueFiles = some fs → ∀ f ∈ fs, f = ['-'] ∨ isAbs f = true
  path : M.path = [] ∨ M.path = ['-'] ∨ isAbs M.path = true

end Yot.Spec
