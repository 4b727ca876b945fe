import Verif.Model.Config
import Verif.Model.Output
import Verif.Model.Pipeline
import Verif.Spec.FromFile
/-
cmd/yot/main.go, internal/commands/root.go, internal/instructions/{instructions,template,
values,config}.go: the process as a whole, from its command line, configuration and
files to its exit status, and what it does to the files.
-/
namespace Yot

/-- How the process ends: main.go:11-14 with status 0; root.go:166-171 (an error message
and status 1; also `Log.Fatal`); a panic, status 2. -/
inductive Exit where
  | success
  | failure
  | crash
deriving DecidableEq, Repr

/-- Go's text/template: whether a text is a template at all, the names it calls as
functions, the functions that are always there, and what executing it gives. (template.go:15-30) -/
structure Templates where
  wellFormed : Str → Bool
  calls : Str → List Str
  builtin : List Str
  exec : Str → Option Node → Option Str

/-- template.go:15-30 `renderInstructionsTemplate` on the text of the file.  As written:
the functions of Sprig are added after the text has been parsed (lines 16 and 21), and
parsing rejects functions that are not there yet. -/
def Templates.render (T : Templates) (text : Str) (values : Option Node) : Option Str :=
  if T.wellFormed text && (T.calls text).all (fun f => decide (f ∈ T.builtin)) then T.exec text values else none

/-- go-logging `LogLevel`: `strings.EqualFold` with the levels' names (none of their letters has a
non-ASCII fold). (root.go:142) -/
def isLevel (t : Str) : Bool :=
  decide (t.map Char.toLower ∈ [c!"critical", c!"error", c!"warning", c!"notice", c!"info", c!"debug"])

/-- Everything the process depends on.  `flagsParse`: cobra accepts the flags other than
those in `cli`.  `valueFiles` is nil without `--values-file`.  `disk` gives the text of
the file at an absolute path.  `stdinText` is what reading standard input for the
instructions or values gives, `stdin1` and `stdin2` what it gives as an input file of the
instructions and of `--path` (it can be used up).  `parse` gives the first document of a
text, `parseAll` all documents; `int` is cast `ToInt` of a text; `encode` is the YAML encoder for an
indentation.  The others are as in `Setup`. (root.go:28-171) -/
structure Machine where
  start : Start
  flagsParse : Bool
  cli : CliFlags
  instructionsFile : Str
  valueFiles : Option (List Str)
  path : Str
  cwd : Str
  disk : Str → Option Str
  stdinText : Option Str
  stdin1 : Option (List Node)
  stdin2 : Option (List Node)
  parse : Str → Option Node
  parseAll : Str → Option (List Node)
  D : Dec
  templates : Templates
  int : Str → Int
  encode : Int → Bool → Node → Res Err Str
  sed : Sed
  fs : Fs
  grow : Nat → Nat → Nat
  writeFails : List Out → Out → Bool

namespace Machine

/-- The absolute path of the file that a name means.  Simplification: links are not
followed, and the disk does not change while the inputs are read. (config.go:75-101, yamlfile.go:84-109) -/
def locate (M : Machine) (p : Str) : Str := if isAbs p then clean p else clean (M.cwd ++ '/' :: p)

/-- viper `GetString`: empty if there is no such setting. (config.go:81, root.go:142) -/
def text (M : Machine) (key : Str) : Str := ((setting M.start key).map CVal.str).getD []

/-- viper `GetBool`. (config.go:53, instructions.go:59) -/
def bool (M : Machine) (key : Str) : Bool := ((setting M.start key).map CVal.toBool).getD false

/-- utils.go:15-27 `ReadStream`, and reading it to the end. -/
def stream (M : Machine) (name : Str) : Option Str :=
  if name = ['-'] then M.stdinText else M.disk (M.locate name)

/-- values.go:17-33: the values files, decoded, in order. -/
def valueNodes (M : Machine) : List Str → Option (List Node)
  | [] => some []
  | f :: fs =>
    match (M.stream f).bind M.parse, M.valueNodes fs with
    | some n, some ns => some (n :: ns)
    | _, _ => none

/-- instructions.go:86-105: the text of the instructions. -/
def instructionsText (M : Machine) : Res Unit Str :=
  match M.valueFiles with
  | none =>
    match M.stream M.instructionsFile with
    | some t => .ok t
    | none => .err ()
  | some fs =>
    match M.valueNodes fs with
    | none => .err ()
    | some ns =>
      match getValues M.sed ns with
      | .err _ => .err ()
      | .panic => .panic
      | .ok v =>
        match (M.disk (M.locate M.instructionsFile)).bind (fun t => M.templates.render t v) with
        | some t => .ok t
        | none => .err ()

/-- yamlfile.go:59-75, 116: the instructions list a null under `yamlFiles`, or possibly do
(through an alias or a merge key, which are not followed here). -/
def MayListNull (doc : Node) : Prop :=
  ∃ c ∈ doc.content, ∃ kv ∈ Spec.pairs c.content, isMergeKey kv.1 = true ∨
    (kv.1.hd.value = c!"yamlFiles" ∧ (kv.2.hd.kind = .alias ∨ ∃ x ∈ kv.2.content, isNull x = true ∨ x.hd.kind = .alias))

/-- instructions.go:27-44, 70-110 `ReadInstructionFile`; without the flag `-i` there are no
instructions. -/
def instructions (M : Machine) : Res Unit DInstr :=
  if M.instructionsFile = [] then .ok {}
  else
    match M.instructionsText with
    | .err e => .err e
    | .panic => .panic
    | .ok t =>
      match decodeInstructions M.D (M.parse t) with
      | some i => .ok i
      | none => .err ()

/-- instructions.go:82-84: the setting `instructionsDir`.  Without the flag `-i` another
setting is set (line 43, `instructionDir`), so that this one is what the configuration file
says, or empty. -/
def dir (M : Machine) : Str :=
  if M.instructionsFile = [] then M.text c!"instructionsDir"
  else dirOf (if isAbs M.instructionsFile then clean M.instructionsFile else pathJoin [M.cwd, M.instructionsFile])

/-- config.go:117: the indentation. -/
def indent (M : Machine) : Int := ((setting M.start c!"indentLevel").map (CVal.toInt M.int)).getD 0

/-- What the run depends on, for overlays, documents, lists and command line overlay in
memory.  config.go:117: `SetIndent` panics for a negative number.  Simplification: here it
does when the first document is encoded, so not for a file without any. -/
def setup (M : Machine) (obj : Nat → Option DOverlay) (docObj : Nat → Option DocObj) (instr : Instr) (adHoc : Option Nat) : Setup where
  sed := M.sed
  dflt := M.text c!"defaultOnMissingAction"
  emit := fun b n => if M.indent < 0 then .panic else M.encode M.indent b n
  style := ((setting M.start c!"outputStyle").map CVal.words).getD []
  outDir := M.text c!"outputDirectory"
  writeFails := M.writeFails
  fs := M.fs
  dir := M.dir
  read1 := fun p => if p = ['-'] then M.stdin1 else (M.disk (M.locate p)).bind M.parseAll
  read2 := fun p => if p = ['-'] then M.stdin2 else (M.disk (M.locate p)).bind M.parseAll
  grow := M.grow
  obj := obj
  docObj := docObj
  instr := instr
  adHocPath := M.path
  adHoc := adHoc
  removeComments := M.bool c!"removeComments"

/-- cobra's parsing of the command line (flags.go), root.go:47-76 `initConfig`, root.go:126-149
`SetupLogging`: `none` if all is well. -/
def startFails (M : Machine) : Option Exit :=
  if !M.flagsParse || (setQueryFlags M.D M.cli.queries []).isNone || M.cli.readAction.isNone then some .failure
  else if (initConfig M.start).isNone then some .failure
  else if !isLevel (M.text c!"logLevel") then some .crash
  else none

/-- The process can end this way, having handed these outputs to the operating system
(the last one possibly not completely).  Reading the instructions and the input files
comes before all output (execute.go:21-24).  `getInstructions` is given enough fuel. -/
inductive Ends (M : Machine) : Exit → List Out → Prop
  | start (e : Exit) : M.startFails = some e → Ends M e []
  | instructionsFail : M.startFails = none → M.instructions = .err () → Ends M .failure []
  /-- yamlfile.go:59-82 is called while the instructions are decoded, perhaps before what is
  wrong with them is found; it crashes at a null.  Simplification: here it may for any
  instructions that are refused and list a null. -/
  | instructionsFailCrash (t : Str) (doc : Node) : M.startFails = none → M.instructions = .err () → M.instructionsFile ≠ [] →
      M.instructionsText = .ok t → M.parse t = some doc → MayListNull doc → Ends M .crash []
  | instructionsCrash : M.startFails = none → M.instructions = .panic → Ends M .crash []
  /-- yamlfile.go:65, 120: a null under `yamlFiles`. -/
  | nullFile (i : DInstr) : M.startFails = none → M.instructions = .ok i → none ∈ i.files →
      (∃ N, ∀ fuel, N ≤ fuel → expandLoopN M.fs M.dir fuel [] i.files = .panic) → Ends M .crash []
  /-- yamlfile.go:65: an error in an entry before the null. -/
  | beforeNull (i : DInstr) : M.startFails = none → M.instructions = .ok i → none ∈ i.files →
      (∃ N, ∀ fuel, N ≤ fuel → expandLoopN M.fs M.dir fuel [] i.files = .err) → Ends M .failure []
  /-- instructions.go:50-52, config.go:173-175: the text of `--value` is no YAML, which is
  found once all files have been read. -/
  | badValue (i : DInstr) (obj : Nat → Option DOverlay) (docObj : Nat → Option DocObj) (instr : Instr)
      (files : List (Entry (List Nat) (List (Option DocObj)))) :
      M.startFails = none → M.instructions = .ok i → Spec.Loaded i (M.setup obj docObj instr none) →
      (∃ N, ∀ fuel, N ≤ fuel → (M.setup obj docObj instr none).getInstructions fuel = .done files) →
      adHocOverlay M.D M.cli = none → Ends M .failure []
  /-- instructions.go:35-48: a file or directory cannot be read. -/
  | unreadable (i : DInstr) (obj : Nat → Option DOverlay) (docObj : Nat → Option DocObj) (instr : Instr) (adHoc : Option Nat) :
      M.startFails = none → M.instructions = .ok i → Spec.Loaded i (M.setup obj docObj instr adHoc) →
      (∃ N, ∀ fuel, N ≤ fuel → (M.setup obj docObj instr adHoc).getInstructions fuel = .err) → Ends M .failure []
  /-- execute.go:62-70: `Execute` returns. -/
  | ran (i : DInstr) (obj : Nat → Option DOverlay) (docObj : Nat → Option DocObj) (instr : Instr) (adHoc : Option Nat)
      (files : List (Entry (List Nat) (List (Option DocObj)))) (s : State) (r : Option RunErr) :
      M.startFails = none → M.instructions = .ok i → Spec.Loaded i (M.setup obj docObj instr adHoc) →
      Spec.FlagsLoaded M.D M.cli (M.setup obj docObj instr adHoc) →
      (∃ N, ∀ fuel, N ≤ fuel → (M.setup obj docObj instr adHoc).getInstructions fuel = .done files) →
      Reach ((M.setup obj docObj instr adHoc).run files) s → s.main = .returned r →
      Ends M (if r = none then .success else .failure) s.log
  /-- A goroutine panics. -/
  | crashed (i : DInstr) (obj : Nat → Option DOverlay) (docObj : Nat → Option DocObj) (instr : Instr) (adHoc : Option Nat)
      (files : List (Entry (List Nat) (List (Option DocObj)))) (s : State) :
      M.startFails = none → M.instructions = .ok i → Spec.Loaded i (M.setup obj docObj instr adHoc) →
      Spec.FlagsLoaded M.D M.cli (M.setup obj docObj instr adHoc) →
      (∃ N, ∀ fuel, N ≤ fuel → (M.setup obj docObj instr adHoc).getInstructions fuel = .done files) →
      Reach ((M.setup obj docObj instr adHoc).run files) s → s.crashed = true →
      Ends M .crash s.log

end Machine

/-! ### What happens to the files -/

/-- What the operating system is asked to do: create a file or empty it, append to it,
print. (config.go:37-101) -/
inductive Effect where
  | create (name : Str)
  | append (name : Str) (text : Str)
  | print (text : Str)

/-- config.go:52-71, 76-101: the effects of writing one output, its text in pieces as
`WriteTo` may deliver it: a new or emptied file, its name on standard output, the pieces;
with the option `stdout` just the pieces.  Simplification: directories are not represented. -/
def effectsOf (stdout : Bool) (o : Out) (pieces : List Str) : List Effect :=
  if stdout then pieces.map .print
  else .create o.name :: .print (o.name ++ ['\n']) :: pieces.map (.append o.name)

/-- The effects of writing all these outputs completely. (execute.go:75-83, config.go:37-73) -/
inductive AllWritten (stdout : Bool) : List Out → List Effect → Prop
  | nil : AllWritten stdout [] []
  | snoc (log : List Out) (es : List Effect) (o : Out) (pieces : List Str) : AllWritten stdout log es →
      pieces.flatten = o.text → AllWritten stdout (log ++ [o]) (es ++ effectsOf stdout o pieces)

/-- The effects of writing these outputs, the last one perhaps not completely. (execute.go:75-83, config.go:37-73) -/
def Underway (stdout : Bool) (log : List Out) (es : List Effect) : Prop :=
  AllWritten stdout log es ∨
  ∃ pre o es0 pieces es1, log = pre ++ [o] ∧ AllWritten stdout pre es0 ∧ pieces.flatten = o.text ∧
    es1 <+: effectsOf stdout o pieces ∧ es = es0 ++ es1

/-- The files after an effect. (config.go:37-101) -/
def Effect.run (loc : Str → Str) (disk : Str → Option Str) : Effect → Str → Option Str
  | .create n => fun l => if l = loc n then some [] else disk l
  | .append n t => fun l => if l = loc n then some ((disk l).getD [] ++ t) else disk l
  | .print _ => disk

/-- The files after some effects. (config.go:37-101) -/
def diskAfter (loc : Str → Str) : (Str → Option Str) → List Effect → Str → Option Str
  | disk, [] => disk
  | disk, e :: es => diskAfter loc (e.run loc disk) es

/-- What has been printed. (config.go:53-73) -/
def printedBy : List Effect → Str
  | [] => []
  | .print t :: es => t ++ printedBy es
  | _ :: es => printedBy es

namespace Machine

/-- config.go:52: the option `stdout`. -/
def stdout (M : Machine) : Bool := M.bool c!"stdout"

/-- The effects of the process when it has ended: all outputs complete unless it failed. (main.go:10-14, root.go:166-171) -/
def Leaves (M : Machine) (e : Exit) (es : List Effect) : Prop :=
  ∃ log, M.Ends e log ∧ (if e = .success then AllWritten M.stdout log es else Underway M.stdout log es)

/-- The effects up to some moment at which the process may be killed. (main.go:10-14, root.go:166-171) -/
def Moment (M : Machine) (es : List Effect) : Prop :=
  es = [] ∨
  ∃ i obj docObj instr adHoc files s,
    M.startFails = none ∧ M.instructions = .ok i ∧ Spec.Loaded i (M.setup obj docObj instr adHoc) ∧
    Spec.FlagsLoaded M.D M.cli (M.setup obj docObj instr adHoc) ∧
    (∃ N, ∀ fuel, N ≤ fuel → (M.setup obj docObj instr adHoc).getInstructions fuel = .done files) ∧
    Reach ((M.setup obj docObj instr adHoc).run files) s ∧ Underway M.stdout s.log es

end Machine

end Yot
