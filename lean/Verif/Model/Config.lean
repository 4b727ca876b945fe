import Verif.Model.Actions
import Verif.Model.GoPath
/-
internal/commands/{root,env,flags}.go with the parts of viper v1.8.1 they use.
-/
namespace Yot

/-- env.go:51-62 `envMap`. -/
def envMap : List (Str × Str) :=
  [(c!"YOT_CONFIG_FILE", c!"configFile"),
   (c!"YOT_DEFAULT_ON_MISSING_ACTION", c!"defaultOnMissingAction"),
   (c!"YOT_INDENT_LEVEL", c!"indentLevel"),
   (c!"YOT_LOG_LEVEL", c!"logLevel"),
   (c!"YOT_OUTPUT_DIRECTORY", c!"outputDirectory"),
   (c!"YOT_OUTPUT_STYLE", c!"outputStyle"),
   (c!"YOT_REMOVE_COMMENTS", c!"removeComments"),
   (c!"YOT_STDOUT", c!"stdout")]

/-- flags.go: the flags bound to settings, and their default values as text (the
flag libraries' rendering of `WARNING`, `[normal]` and `ignore`).  The default of
`--config` is the environment variable (root.go:37, flags.go:14). -/
def boundFlags (configDefault : Str) : List (Str × Str × Str) :=
  [(c!"configFile", c!"config", configDefault),
   (c!"logLevel", c!"log-level", c!"warning"),
   (c!"outputDirectory", c!"output-directory", c!"./output"),
   (c!"stdout", c!"stdout", c!"false"),
   (c!"removeComments", c!"remove-comments", c!"false"),
   (c!"indentLevel", c!"indent-level", c!"2"),
   (c!"outputStyle", c!"output-style", c!"[normal]"),
   (c!"defaultOnMissingAction", c!"default-on-missing-action", c!"ignore")]

/-- The value of a setting, as viper keeps it: a text (flags, variables, quoted or plain words in
the file), a boolean, an integer, a list of texts; anything else (a mapping), with the way it is
printed.  Simplification: floating point numbers and dates are not represented; an entry with the
value null counts as absent. (config.go:53-129, env.go:44-47) -/
inductive CVal where
  | text (t : Str)
  | bool (b : Bool)
  | int (i : Int)
  | list (items : List Str)
  | other (printed : Str)
deriving DecidableEq, Repr

/-- cast `ToString`; empty if that fails. (config.go:81, root.go:142) -/
def CVal.str : CVal → Str
  | .text t => t
  | .bool b => formatBool b
  | .int i => itoa i
  | .list _ => []
  | .other _ => []

/-- `strconv.ParseBool` of a text, false if that fails. (config.go:53, instructions.go:59) -/
def castBool (t : Str) : Bool :=
  decide (t ∈ [c!"1", c!"t", c!"T", c!"true", c!"TRUE", c!"True"])

/-- cast `ToBool`. (config.go:53, instructions.go:59) -/
def CVal.toBool : CVal → Bool
  | .text t => castBool t
  | .bool b => b
  | .int i => i ≠ 0
  | _ => false

/-- cast `ToInt`, `int` being what it makes of a text. (config.go:117) -/
def CVal.toInt (int : Str → Int) : CVal → Int
  | .text t => int t
  | .bool b => if b then 1 else 0
  | .int i => i
  | _ => 0

/-- White space as `strings.Fields` sees it (ASCII). (config.go:129) -/
def isBlank (c : Char) : Bool := c = ' ' || c = '\t' || c = '\n' || c = '\r' || c = '\x0b' || c = '\x0c'

/-- `strings.Fields` from a state on: `w` is the word so far. (config.go:129) -/
def fieldsFrom (w : Str) : Str → List Str
  | [] => if w = [] then [] else [w]
  | c :: cs => if isBlank c then (if w = [] then fieldsFrom [] cs else w :: fieldsFrom [] cs) else fieldsFrom (w ++ [c]) cs

/-- `strings.Fields`. (config.go:129) -/
def fields (s : Str) : List Str := fieldsFrom [] s

/-- cast `ToStringSlice`. (config.go:129) -/
def CVal.words : CVal → List Str
  | .text t => fields t
  | .bool b => [formatBool b]
  | .int i => [itoa i]
  | .list l => l
  | .other _ => []

/-- How `%v` prints it. (env.go:44-47) -/
def CVal.shown : CVal → Str
  | .text t => t
  | .bool b => formatBool b
  | .int i => itoa i
  | .list l => '[' :: (joinWith ' ' l ++ [']'])
  | .other p => p

/-- What a run is started with: the flags given on the command line (by long name,
the last value), the environment, the entries of the configuration file that a
path or the search leads to; whether the file the search leads to is not a configuration.
(root.go:48-76, flags.go:13-177) -/
structure Start where
  flags : Str → Option Str
  env : Str → Option Str
  fileAt : Str → Option (List (Str × CVal))
  found : Option (Str × List (Str × CVal))
  foundBad : Bool := false

/-- The state of viper: all maps have lower-cased keys.  `pflags` has the flag's
value if it was changed, and its default. (root.go:48-76, flags.go:16-143) -/
structure Viper where
  override : List (Str × Str) := []
  pflags : List (Str × Option Str × Str) := []
  env : List (Str × Str) := []
  config : List (Str × CVal) := []
  defaults : List (Str × Str) := []

/-- Map lookup. (root.go:49, env.go:51-61) -/
def assoc {α : Type} (k : Str) (l : List (Str × α)) : Option α := (l.find? (fun p => p.1 = k)).map Prod.snd

/-- viper `Set`, `BindEnv`, `SetDefault`, `BindPFlag`: under the lower-cased key. (root.go:75) -/
def Viper.set (v : Viper) (k x : Str) : Viper := { v with override := (toLowerStr k, x) :: v.override }
/-- viper `BindEnv` (root.go:50). -/
def Viper.bindEnv (v : Viper) (k x : Str) : Viper := { v with env := v.env ++ [(toLowerStr k, x)] }
/-- viper `SetDefault` (flags.go:72). -/
def Viper.setDefault (v : Viper) (k x : Str) : Viper := { v with defaults := (toLowerStr k, x) :: v.defaults }
/-- viper `BindPFlag` (flags.go:16-143). -/
def Viper.bindFlag (v : Viper) (k : Str) (changed : Option Str) (dflt : Str) : Viper :=
  { v with pflags := (toLowerStr k, changed, dflt) :: v.pflags }

/-- viper `ReadInConfig`: the entries of the file. (root.go:67-73) -/
def Viper.readConfig (v : Viper) (es : List (Str × CVal)) : Viper :=
  { v with config := es.map (fun e => (toLowerStr e.1, e.2)) }

/-- viper `getEnv`: an empty variable counts as unset. (root.go:50) -/
def getEnv (env : Str → Option Str) (k : Str) : Option Str :=
  match env k with
  | some [] => none
  | r => r

/-- viper `Get`: override, changed flag, bound environment variable, configuration
file, default, flag default. (env.go:44-47, config.go:53-129) -/
def Viper.get (v : Viper) (env : Str → Option Str) (key : Str) : Option CVal :=
  let k := toLowerStr key
  ((assoc k v.override).map .text) <|>
  ((assoc k v.pflags).bind (fun f => f.1.map .text)) <|>
  (((assoc k v.env).bind (getEnv env)).map .text) <|>
  (assoc k v.config) <|>
  ((assoc k v.defaults).map .text) <|>
  ((assoc k v.pflags).map (fun f => .text f.2))

/-- root.go:37 and flags.go:14: the configuration file asked for, empty if none. -/
def configFileArg (s : Start) : Str := (s.flags c!"config").getD ((s.env c!"YOT_CONFIG_FILE").getD [])

/-- flags.go: `AddFlags` and the parsed command line. -/
def flagsBound (s : Start) : Viper :=
  ((boundFlags ((s.env c!"YOT_CONFIG_FILE").getD [])).foldl
    (fun v f => v.bindFlag f.1 (s.flags f.2.1) f.2.2) ({} : Viper)).setDefault c!"outputDirectory" c!"./output"

/-- root.go:48-53: the loop binding the environment variables, as written: the
variable's name is bound as the key, the setting's name as the variable.
Simplification: Go iterates over the map in any order; the keys are distinct. -/
def bindEnvs (v : Viper) : Viper := envMap.foldl (fun v p => v.bindEnv p.1 p.2) v

/-- root.go:47-76 `initConfig`; none is the fatal error for a file asked for that
cannot be read, or one found that is not a configuration (a search that finds nothing is no
error). -/
def initConfig (s : Start) : Option Viper :=
  let v := bindEnvs (flagsBound s)
  if configFileArg s ≠ [] then
    (s.fileAt (configFileArg s)).map (fun es =>
      (v.readConfig es).set c!"configFile" (configFileArg s))
  else if s.foundBad then none
  else
    match s.found with
    | none => some v
    | some (p, es) => some ((v.readConfig es).set c!"configFile" p)

/-- viper.Get after start-up: the value of a setting. (env.go:44-47, config.go:53-129) -/
def setting (s : Start) (key : Str) : Option CVal := (initConfig s).bind (fun v => v.get s.env key)

/-- env.go:46: one line of the `env` command, `fmt.Sprintf("%s=\"%v\"\n", name, viper.Get(key))`;
nil is printed as `<nil>`. -/
def envLine (s : Start) (name key : Str) : Str :=
  name ++ c!"=\"" ++ ((setting s key).map CVal.shown).getD c!"<nil>" ++ c!"\"\n"

/-- env.go:39-49 `env`: what the `env` command prints; `order` is the order in which Go
iterates over `envMap`, a permutation of it.  Looking up an unknown name in the map gives the
empty text.  Too many arguments are an error (cobra, `MaximumNArgs(1)`), as is an unreadable
configuration file (root.go:47-76, before). -/
def envCommand (s : Start) (order : List (Str × Str)) (args : List Str) : Option Str :=
  if (initConfig s).isNone then none
  else
    match args with
    | [] => some (order.flatMap (fun p => envLine s p.1 p.2))
    | [name] => some (envLine s name ((assoc name envMap).getD []))
    | _ => none

/-! ### Where the configuration file is -/

/-- What viper's search depends on: the working directory, the user's home directory (`$HOME`),
the extensions viper tries (its `SupportedExts`), which paths are files (and not directories),
and the settings in the file at a path (none: it cannot be read or is not a configuration).
Simplification: the path itself is taken as it is, variables in the home directory are not
expanded. (root.go:55-73) -/
structure Search where
  cwd : Str
  home : Str
  exts : List Str
  isFile : Str → Bool
  entries : Str → Option (List (Str × CVal))

/-- viper `absPathify`. (root.go:62-64) -/
def absPathify (cwd p : Str) : Str := if isAbs p then clean p else pathJoin [cwd, p]

/-- root.go:62-64: the directories searched, in order. -/
def Search.dirs (S : Search) : List Str :=
  [absPathify S.cwd c!"./", absPathify S.cwd (S.home ++ c!"/.yot/"), absPathify S.cwd c!"/etc/yot/"]

/-- viper `searchInPath` for the name `yot.config` (root.go:56): with an extension first, then,
as there is a configuration type (root.go:55), without. -/
def Search.inDir (S : Search) (d : Str) : Option Str :=
  ((S.exts.map (fun e => pathJoin [d, c!"yot.config" ++ '.' :: e])) ++ [pathJoin [d, c!"yot.config"]]).find? S.isFile

/-- viper `findConfigFile`. (root.go:67) -/
def Search.find (S : Search) : Option Str := S.dirs.findSome? S.inDir

/-- What a run is started with, the configuration being searched on the disk. (root.go:47-76) -/
def Search.start (S : Search) (flags env : Str → Option Str) : Start where
  flags := flags
  env := env
  fileAt := fun p => S.entries (absPathify S.cwd p)
  found := S.find.bind (fun p => (S.entries p).map (fun es => (p, es)))
  foundBad := S.find.any (fun p => (S.entries p).isNone)

end Yot
