import Verif.Spec.Config
import Verif.Spec.Paths
/-
Where the configuration file is looked for, as documented (docs/sections/configFile.md).
-/
namespace Yot.Spec

/-- A path is asked for by `--config` or else by the variable `YOT_CONFIG_FILE`. -/
def AskedFor (flags env : Str → Option Str) (p : Str) : Prop :=
  p ≠ [] ∧ (flags c!"config" = some p ∨ flags c!"config" = none ∧ env c!"YOT_CONFIG_FILE" = some p)

/-- The default locations, the one that takes precedence first: the working directory, `.yot` in
the home directory, `/etc/yot`. -/
def defaultPlaces (cwd home : List Str) : List (List Str) :=
  [cwd ++ [c!"yot.config"], home ++ [c!".yot", c!"yot.config"], [c!"etc", c!"yot", c!"yot.config"]]

/-- The directories of the default locations. -/
def defaultDirs (cwd home : List Str) : List (List Str) := [cwd, home ++ [c!".yot"], [c!"etc", c!"yot"]]

/-- All files looked for: in each directory, first with each of these extensions, then without. -/
def allPlaces (exts : List Str) (cwd home : List Str) : List (List Str) :=
  (defaultDirs cwd home).flatMap (fun d => exts.map (fun e => d ++ [c!"yot.config." ++ e]) ++ [d ++ [c!"yot.config"]])

/-- `p` is the first of the list with the property. -/
def FirstWith {α : Type} (P : α → Prop) (l : List α) (p : α) : Prop :=
  ∃ a b, l = a ++ p :: b ∧ P p ∧ ∀ q ∈ a, ¬ P q

/-- The documented configuration file: the one asked for, else the first of the default locations
where there is a file; none if there is none. -/
inductive ConfigAt (isFile : Str → Bool) (cwd home : List Str) (flags env : Str → Option Str) : Option Str → Prop
  | absolute (cs : List Str) : (∀ c ∈ cs, IsName c) → AskedFor flags env (absPath cs) → ConfigAt isFile cwd home flags env (some (absPath cs))
  | relative (cs : List Str) : cs ≠ [] → (∀ c ∈ cs, IsName c) → AskedFor flags env (relPath cs) →
      ConfigAt isFile cwd home flags env (some (absPath (cwd ++ cs)))
  | default (cs : List Str) : (∀ p, ¬ AskedFor flags env p) →
      FirstWith (fun p => isFile (absPath p) = true) (defaultPlaces cwd home) cs → ConfigAt isFile cwd home flags env (some (absPath cs))
  | nothing : (∀ p, ¬ AskedFor flags env p) → (∀ p ∈ defaultPlaces cwd home, isFile (absPath p) = false) →
      ConfigAt isFile cwd home flags env none

end Yot.Spec
