import Verif.Spec.Process
/-
Where the instructions and the values come from.
-/
namespace Yot.Spec
open Yot

/-- The same command, with the instructions in this file and these values files. -/
def withInstructions (M : Machine) (f : Str) (values : Option (List Str)) : Machine :=
  { M with instructionsFile := f, valueFiles := values }

/-- The two names lie in the same directory (standard input, `-`, lies in the working directory). -/
def SameDirectory (M : Machine) (f f' : Str) : Prop :=
  ∃ d b b', (∀ c ∈ d ++ [b, b'], IsName c) ∧ M.locate f = absPath (d ++ [b]) ∧ M.locate f' = absPath (d ++ [b'])

end Yot.Spec
