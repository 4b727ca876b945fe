import Verif.Model.Process
/-
internal/commands/{root,flags}.go: the flags the command line defines, and how cobra v1.1.3
and pflag v1.0.5 read the arguments of the process (external; modelled from their
documentation).
-/
namespace Yot

/-- What kind of value a flag takes. (flags.go:13-177) -/
inductive FlagKind where
  | text | list | bool | int | level | styles | onMissing | action | query
deriving DecidableEq, Repr

/-- A flag: its long name, its letter, its kind, and the value it has when it is given
without one (`NoOptDefVal`). (flags.go:13-177) -/
structure FlagDef where
  long : Str
  short : Option Char
  kind : FlagKind
  bare : Option Str := none
deriving DecidableEq, Repr

/-- flags.go:13-177: the flags defined.  `BoolVarP` sets `NoOptDefVal` to `true`. -/
def flagTable : List FlagDef :=
  [{ long := c!"config", short := none, kind := .text },
   { long := c!"log-level", short := some 'v', kind := .level, bare := some c!"debug" },
   { long := c!"instructions", short := some 'i', kind := .text },
   { long := c!"default-on-missing-action", short := none, kind := .onMissing },
   { long := c!"output-directory", short := some 'o', kind := .text },
   { long := c!"stdout", short := some 's', kind := .bool, bare := some c!"true" },
   { long := c!"indent-level", short := some 'I', kind := .int },
   { long := c!"output-style", short := some 'S', kind := .styles },
   { long := c!"remove-comments", short := none, kind := .bool, bare := some c!"true" },
   { long := c!"values-file", short := some 'f', kind := .list },
   { long := c!"query", short := some 'q', kind := .query },
   { long := c!"action", short := some 'a', kind := .action },
   { long := c!"value", short := some 'x', kind := .text },
   { long := c!"path", short := some 'p', kind := .text }]

/-- The flags cobra adds before parsing: help, and a version flag whose letter is taken by
`--log-level`. (root.go:94, flags.go:29-34) -/
def cobraFlags : List FlagDef :=
  [{ long := c!"help", short := some 'h', kind := .bool, bare := some c!"true" },
   { long := c!"version", short := none, kind := .bool, bare := some c!"true" }]

/-- All flags known when the arguments are parsed. (flags.go:13-177) -/
def allFlags : List FlagDef := flagTable ++ cobraFlags

/-- pflag `Lookup` (flags.go:35). -/
def longFlag (fs : List FlagDef) (n : Str) : Option FlagDef := fs.find? (fun f => f.long = n)
/-- pflag `ShorthandLookup` (flags.go:29-34). -/
def shortFlag (fs : List FlagDef) (c : Char) : Option FlagDef := fs.find? (fun f => f.short = some c)

/-- root.go:126-129 `AddCommands`, and cobra's own `help` (and `__complete`, the shell
completion's). -/
def commandNames : List Str := [c!"completion", c!"env", c!"help", c!"__complete", c!"__completeNoDesc"]

/-- cobra `stripFlags`: the argument takes the next one with it. (root.go:78-113) -/
def takesNext : Str → Bool
  | '-' :: '-' :: name => decide ('=' ∉ name) && ((longFlag flagTable name).bind FlagDef.bare).isNone
  | ['-', c] => decide (c ≠ '=') && decide (c.toNat < 128) && ((shortFlag flagTable c).bind FlagDef.bare).isNone
  | _ => false

/-- cobra `stripFlags`: the arguments that can be the name of a command. (root.go:78-113) -/
def stripFlags : List Str → List Str
  | [] => []
  | [s] => if s = c!"--" ∨ takesNext s then [] else if s ≠ [] ∧ s.head? ≠ some '-' then [s] else []
  | [s, t] =>
    if s = c!"--" ∨ takesNext s then []
    else if s ≠ [] ∧ s.head? ≠ some '-' then s :: stripFlags [t]
    else stripFlags [t]
  | s :: t :: u :: r =>
    if s = c!"--" then []
    else if takesNext s then stripFlags (u :: r)
    else if s ≠ [] ∧ s.head? ≠ some '-' then s :: stripFlags (t :: u :: r)
    else stripFlags (t :: u :: r)

/-- The flags given, by long name, with their texts, in order. (flags.go:13-177) -/
abbrev Given := List (Str × Str)

/-- pflag `parseLongArg` on what follows the dashes: the flag, with its value or waiting
for it; none is an error. (flags.go:13-177) -/
def longArg (name : Str) : Option (Given × Option Str) :=
  if name.head? = some '-' ∨ name.head? = some '=' then none
  else
    match longFlag allFlags (name.takeWhile (· ≠ '=')) with
    | none => none
    | some f =>
      if '=' ∈ name then some ([(f.long, (name.dropWhile (· ≠ '=')).drop 1)], none)
      else match f.bare with
        | some b => some ([(f.long, b)], none)
        | none => some ([], some f.long)

/-- pflag `parseShortArg` on what follows the dash: the flags with their values, the last
perhaps waiting for its; none is an error. (flags.go:13-177) -/
def shortArgs : Str → Option (Given × Option Str)
  | [] => some ([], none)
  | c :: r =>
    if hasPrefix c!"test." (c :: r) then some ([], none)
    else
      match shortFlag allFlags c with
      | none => none
      | some f =>
        if r.head? = some '=' ∧ 2 ≤ r.length then some ([(f.long, r.drop 1)], none)
        else match f.bare with
          | some b => (shortArgs r).map (fun x => ((f.long, b) :: x.1, x.2))
          | none => if r = [] then some ([], some f.long) else some ([(f.long, r)], none)

/-- pflag `parseArgs`; the first argument is the flag that waits for its value.  Other
arguments are passed over (root.go:155-163 ignores them). -/
def parseFrom : Option Str → List Str → Option Given
  | none, [] => some []
  | some _, [] => none
  | some f, a :: as => (parseFrom none as).map (fun g => (f, a) :: g)
  | none, s :: as =>
    match s with
    | ['-', '-'] => some []
    | '-' :: '-' :: name =>
      match longArg name with
      | none => none
      | some (g, w) => (parseFrom w as).map (fun g' => g ++ g')
    | '-' :: c :: r =>
      match shortArgs (c :: r) with
      | none => none
      | some (g, w) => (parseFrom w as).map (fun g' => g ++ g')
    | _ => parseFrom none as

/-- What the arguments ask for: the main command with flags, another command, or they are
refused. (root.go:78-129) -/
inductive Called where
  | run (g : Given)
  | other
  | refused
deriving DecidableEq, Repr

/-- cobra `Find` and `ParseFlags`.  (An unknown word is refused because the main command has
commands below it and `Args` is nil, root.go:88.) -/
def called (args : List Str) : Called :=
  match stripFlags args with
  | w :: _ => if w ∈ commandNames then .other else .refused
  | [] =>
    match parseFrom none args with
    | some g => .run g
    | none => .refused

/-- The texts given for a flag. (flags.go:13-177) -/
def Given.texts (g : Given) (n : Str) : List Str := (g.filter (fun p => p.1 = n)).map Prod.snd

/-- What the libraries make of the texts of flags: the YAML parser, `strconv.ParseInt(_, 0, 64)`. (flags.go:76-82, 148-161) -/
structure Texts where
  yaml : Str → Flag
  int : Str → Option Int

/-- flags.go:20-27 `logMap`, the first of each being the one printed. -/
def logMap : List (List Str) :=
  [[c!"critical", c!"crit", c!"c"], [c!"error", c!"err", c!"e"], [c!"warning", c!"warn", c!"w"],
   [c!"notice", c!"note", c!"n"], [c!"info", c!"i"], [c!"debug", c!"d", c!"verbose", c!"v"]]

/-- flags.go:29-34, the enumflag library with `EnumCaseInsensitive`: the level's text. External;
modelled from its documentation. -/
def levelOfFlag (s : Str) : Option Str :=
  ((logMap.find? (fun e => e.any (fun a => toLowerStr a = toLowerStr s))).bind List.head?)

/-- action.go:134-140 `OnMissingAction.Set`. -/
def setOnMissingFlag (f : Flag) (a : OnMissingAction) : Option OnMissingAction :=
  match f with
  | .bad => none
  | .empty => some a
  | .root n =>
    match decodeOnMissingAction n with
    | .err => none
    | .skip => some a
    | .val b => some b

/-- The flag takes the text (`Set` returns no error). (flags.go:13-177) -/
def FlagKind.takes (P : Texts) (D : Dec) (v : Str) : FlagKind → Bool
  | .text => true
  | .list => true
  | .bool => (parseBool v).isSome
  | .int => (P.int v).isSome
  | .level => (levelOfFlag v).isSome
  | .styles => (stylesOfFlag v).isSome
  | .onMissing => (setOnMissingFlag (P.yaml v) .default).isSome
  | .action => (setActionFlag (P.yaml v) .invalid).isSome
  | .query => (setQueryFlag D (P.yaml v) []).isSome

/-- All flags given take their texts. (flags.go:13-177) -/
def Given.taken (P : Texts) (D : Dec) (g : Given) : Bool :=
  g.all (fun p => match longFlag allFlags p.1 with
    | some f => f.kind.takes P D p.2
    | none => false)

/-- The text of the flag's value (`Value.String`), for viper, after the texts have been set in
order; the styles given last are added to those before (the default is left out). (flags.go:13-143) -/
def FlagKind.shown (P : Texts) (vs : List Str) : FlagKind → Str
  | .bool => formatBool ((parseBool (vs.getLastD [])).getD false)
  | .int => itoa ((P.int (vs.getLastD [])).getD 0)
  | .level => (levelOfFlag (vs.getLastD [])).getD []
  | .styles => showStyles (vs.flatMap (fun v => (stylesOfFlag v).getD []))
  | .onMissing => (vs.foldl (fun a v => (setOnMissingFlag (P.yaml v) a).getD a) OnMissingAction.ignore).str
  | _ => vs.getLastD []

/-- The flag's value, if it was given. (flags.go:13-143) -/
def Given.value (P : Texts) (g : Given) (n : Str) : Option Str :=
  match longFlag allFlags n, g.texts n with
  | some f, v :: vs => some (f.kind.shown P (v :: vs))
  | _, _ => none

/-- action.go:77-83: the text that `--action` had its value from: others leave it. -/
def saysAction (f : Flag) : Bool :=
  match f with
  | .root n => match decodeAction n with
    | .val _ => true
    | _ => false
  | _ => false

/-- The process with these flags, `M` giving everything else. (flags.go:13-177, root.go:28-46) -/
def Machine.given (M : Machine) (P : Texts) (g : Given) : Machine :=
  { M with
    start := { M.start with flags := g.value P }
    flagsParse := g.taken P M.D
    cli := { queries := (g.texts c!"query").map P.yaml
             action := (((g.texts c!"action").map P.yaml).filter saysAction).getLast?
             value := P.yaml ((g.texts c!"value").getLastD []) }
    instructionsFile := (g.texts c!"instructions").getLastD []
    valueFiles := if g.texts c!"values-file" = [] then none else some (g.texts c!"values-file")
    path := (g.texts c!"path").getLastD [] }

/-- Help or the version is asked for. (root.go:94) -/
def Given.info (g : Given) : Bool :=
  [c!"help", c!"version"].any (fun n => ((parseBool ((g.texts n).getLastD [])).getD false))

/-- How the process ends that is started with these arguments, for the main command;
with the outputs it handed to the operating system. (main.go:11-14, root.go:155-171) -/
inductive Machine.EndsOn (M : Machine) (P : Texts) (args : List Str) : Exit → List Out → Prop
  | refused : called args = .refused → EndsOn M P args .failure []
  | badText (g : Given) : called args = .run g → g.taken P M.D = false → EndsOn M P args .failure []
  | info (g : Given) : called args = .run g → g.taken P M.D = true → g.info = true → EndsOn M P args .success []
  | run (g : Given) (e : Exit) (log : List Out) : called args = .run g → g.taken P M.D = true → g.info = false →
      (M.given P g).Ends e log → EndsOn M P args e log

end Yot
