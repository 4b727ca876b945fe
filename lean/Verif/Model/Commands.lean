import Verif.Model.Args
/-
internal/commands/{env,completion}.go: the commands `yot env` and `yot completion`, and how cobra
v1.1.3 and pflag v1.0.5 hand them their arguments (external; modelled from their documentation).
-/
namespace Yot

/-- The shells. (completion.go:18) -/
def shellNames : List Str := [c!"bash", c!"zsh", c!"fish", c!"powershell"]

/-- What cobra generates: the script for a shell (none if it cannot be written), the help text of a
command. (completion.go:29-45) -/
structure Scripts where
  script : Str → Option Str
  help : Str → Str

/-- pflag `parseLongArg` in a command whose only flag is `--help` (the main command's flags are
not persistent, flags.go:13-177): the text given to it; none is an error. -/
def subLong (name : Str) : Option (List Str) :=
  if name.head? = some '-' ∨ name.head? = some '=' then none
  else if name.takeWhile (· ≠ '=') = c!"help" then
    if '=' ∈ name then some [(name.dropWhile (· ≠ '=')).drop 1] else some [c!"true"]
  else none

/-- pflag `parseShortArg` in such a command. (flags.go:13-177) -/
def subShort : Str → Option (List Str)
  | [] => some []
  | c :: r =>
    if hasPrefix c!"test." (c :: r) then some []
    else if c = 'h' then
      if r.head? = some '=' ∧ 2 ≤ r.length then some [r.drop 1]
      else (subShort r).map (fun g => c!"true" :: g)
    else none

/-- pflag `parseArgs` in such a command: the texts given to `--help`, and the other arguments.
(env.go:14-38, completion.go:12-22) -/
def parseSub : List Str → Option (List Str × List Str)
  | [] => some ([], [])
  | s :: as =>
    match s with
    | ['-', '-'] => some ([], as)
    | '-' :: '-' :: name =>
      match subLong name with
      | none => none
      | some g => (parseSub as).map (fun x => (g ++ x.1, x.2))
    | '-' :: c :: r =>
      match subShort (c :: r) with
      | none => none
      | some g => (parseSub as).map (fun x => (g ++ x.1, x.2))
    | _ => (parseSub as).map (fun x => (x.1, s :: x.2))

/-- `MaximumNArgs(1)` (env.go:20) and `ExactValidArgs(1)` (completion.go:19). -/
def argsValid (name : Str) (ps : List Str) : Bool :=
  if name = c!"env" then decide (ps.length ≤ 1)
  else match ps with
    | [sh] => decide (sh ∈ shellNames)
    | _ => false

/-- What the process starts with, none of the main command's flags being given. (root.go:28-46) -/
def Machine.noFlags (M : Machine) : Start := { M.start with flags := fun _ => none }

/-- completion.go:24-47 `Completions`, its argument being valid. -/
def completions (X : Scripts) : List Str → Exit × Str
  | [sh] =>
    match X.script sh with
    | some t => (.success, t)
    | none => (.failure, [])
  | _ => (.crash, [])

/-- cobra `execute` of a command: flags, help, `initConfig` (root.go:48-76), arguments,
`SetupLogging` (root.go:131-153), the command itself (env.go:39-49, completion.go:24-47).  `order` is the
order in which Go iterates over `envMap`.  What is printed is what goes to standard output. -/
def Machine.runCommand (M : Machine) (X : Scripts) (order : List (Str × Str)) (name : Str) (args : List Str) : Exit × Str :=
  match parseSub args with
  | none => (.failure, [])
  | some (g, ps) =>
    if g.any (fun v => (parseBool v).isNone) then (.failure, [])
    else if (parseBool (g.getLastD c!"false")).getD false then (.success, X.help name)
    else if (initConfig M.noFlags).isNone then (.failure, [])
    else if !argsValid name ps then (.failure, [])
    else if !isLevel (((setting M.noFlags c!"logLevel").map CVal.str).getD []) then (.crash, [])
    else if name = c!"env" then
      match envCommand M.noFlags order ps with
      | some t => (.success, t)
      | none => (.failure, [])
    else completions X ps

/-- cobra `Find`: the command named by the first word that is no flag's value, with the other
arguments (`argsMinusFirstX`); none if it is another one. (root.go:126-129) -/
def Machine.command (M : Machine) (X : Scripts) (order : List (Str × Str)) (args : List Str) : Option (Exit × Str) :=
  match stripFlags args with
  | [] => none
  | w :: _ => if w ∈ [c!"env", c!"completion"] then some (M.runCommand X order w (args.erase w)) else none

end Yot
