import Verif.Model.Args
import Verif.Spec.Process
/-
What the arguments of the process are supposed to mean.
-/
namespace Yot.Spec

/-- The documented flags but for help and version (docs/sections/commandUsage.md, configFile.md and the help texts): long
name, letter, and what the flag means when it is given without a value, if it may be. -/
def documentedFlags : List (Str × Option Char × Option Str) :=
  [(c!"action", some 'a', none), (c!"config", none, none), (c!"default-on-missing-action", none, none),
   (c!"indent-level", some 'I', none), (c!"instructions", some 'i', none),
   (c!"log-level", some 'v', some c!"debug"), (c!"output-directory", some 'o', none), (c!"output-style", some 'S', none),
   (c!"path", some 'p', none), (c!"query", some 'q', none), (c!"remove-comments", none, some c!"true"),
   (c!"stdout", some 's', some c!"true"), (c!"value", some 'x', none), (c!"values-file", some 'f', none)]

/-- A switch with its letter: name, letter, meaning. -/
def Switch (x : Str × Char × Str) : Prop := (x.1, some x.2.1, some x.2.2) ∈ documentedFlags

/-- The letters of some switches. -/
def lettersOf (pre : List (Str × Char × Str)) : Str := pre.map (·.2.1)
/-- What they say. -/
def meant (pre : List (Str × Char × Str)) : List (Str × Str) := pre.map (fun x => (x.1, x.2.2))

/-- Some flags with values, and arguments that give them: `--name=value`, `--name value`,
`--name`, `-n value`, `-nvalue`, `-n=value`; letters of flags that need no value can stand before
the letter, as in `-svo/tmp` or `-sv`. -/
inductive Spelled : List (Str × Str) → List Str → Prop
  | equals {n : Str} {c : Option Char} {b : Option Str} (v : Str) : (n, c, b) ∈ documentedFlags →
      Spelled [(n, v)] [c!"--" ++ n ++ c!"=" ++ v]
  | next {n : Str} {c : Option Char} (v : Str) : (n, c, none) ∈ documentedFlags → Spelled [(n, v)] [c!"--" ++ n, v]
  | bare {n : Str} {c : Option Char} {b : Str} : (n, c, some b) ∈ documentedFlags → Spelled [(n, b)] [c!"--" ++ n]
  | letter {n : Str} {c : Char} (v : Str) : (n, some c, none) ∈ documentedFlags → Spelled [(n, v)] [['-', c], v]
  | switches (pre : List (Str × Char × Str)) : pre ≠ [] → (∀ x ∈ pre, Switch x) → Spelled (meant pre) ['-' :: lettersOf pre]
  | joined (pre : List (Str × Char × Str)) {n : Str} {c : Char} (v : Str) : (∀ x ∈ pre, Switch x) →
      (n, some c, none) ∈ documentedFlags → v ≠ [] → v.head? ≠ some '=' →
      Spelled (meant pre ++ [(n, v)]) ['-' :: lettersOf pre ++ c :: v]
  | joinedEquals (pre : List (Str × Char × Str)) {n : Str} {c : Char} {b : Option Str} (v : Str) : (∀ x ∈ pre, Switch x) →
      (n, some c, b) ∈ documentedFlags → v ≠ [] → Spelled (meant pre ++ [(n, v)]) ['-' :: lettersOf pre ++ c :: '=' :: v]

/-- A whole command line. -/
inductive Line : List (Str × Str) → List Str → Prop
  | nil : Line [] []
  | cons {g gs : List (Str × Str)} {a as : List Str} : Spelled g a → Line gs as → Line (g ++ gs) (a ++ as)

/-- The values given for a flag, in order. -/
def valuesOf (n : Str) : List (Str × Str) → List Str
  | [] => []
  | (m, v) :: l => if m = n then v :: valuesOf n l else valuesOf n l

/-- The last of them, if any. -/
def lastOf (n : Str) (l : List (Str × Str)) : Option Str := (valuesOf n l).getLast?

end Yot.Spec
