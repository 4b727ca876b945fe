import Verif.Model.Config
/-
The documented meaning of the configuration.
-/
namespace Yot.Spec

/-- A documented setting: its name, flag, environment variable and default. -/
structure Setting where
  name : Str
  flag : Str
  var : Str
  dflt : Str
deriving DecidableEq, Repr

/-- docs: all settings but the configuration file itself. -/
def settings : List Setting :=
  [⟨c!"defaultOnMissingAction", c!"default-on-missing-action", c!"YOT_DEFAULT_ON_MISSING_ACTION", c!"ignore"⟩,
   ⟨c!"indentLevel", c!"indent-level", c!"YOT_INDENT_LEVEL", c!"2"⟩,
   ⟨c!"logLevel", c!"log-level", c!"YOT_LOG_LEVEL", c!"warning"⟩,
   ⟨c!"outputDirectory", c!"output-directory", c!"YOT_OUTPUT_DIRECTORY", c!"./output"⟩,
   ⟨c!"outputStyle", c!"output-style", c!"YOT_OUTPUT_STYLE", c!"[normal]"⟩,
   ⟨c!"removeComments", c!"remove-comments", c!"YOT_REMOVE_COMMENTS", c!"false"⟩,
   ⟨c!"stdout", c!"stdout", c!"YOT_STDOUT", c!"false"⟩]

/-- The names differ at most in case. -/
def SameName (a b : Str) : Prop := toLowerStr a = toLowerStr b

/-- The entries of the configuration file in use: the one asked for by flag, else by
variable, else the one found by searching; none if it cannot be read. -/
def fileEntries (s : Start) : Option (List (Str × CVal)) :=
  match s.flags c!"config", s.env c!"YOT_CONFIG_FILE" with
  | some (c :: p), _ => s.fileAt (c :: p)
  | none, some (c :: p) => s.fileAt (c :: p)
  | _, _ => if s.foundBad then none else some ((s.found.map Prod.snd).getD [])

/-- Which file that is, if any. -/
def fileUsed (s : Start) : Option Str :=
  match s.flags c!"config", s.env c!"YOT_CONFIG_FILE" with
  | some (c :: p), _ => some (c :: p)
  | none, some (c :: p) => some (c :: p)
  | _, _ => s.found.map Prod.fst

/-- The file gives the setting the value `x`, or no value. -/
def FileSays (es : List (Str × CVal)) (name : Str) : Option CVal → Prop
  | some x => ∃ k, (k, x) ∈ es ∧ SameName k name
  | none => ∀ k x, (k, x) ∈ es → ¬ SameName k name

/-- The documented value: flag, else variable, else file, else default. -/
def documented (s : Start) (t : Setting) (inFile : Option CVal) : CVal :=
  match s.flags t.flag with
  | some x => .text x
  | none =>
    match s.env t.var with
    | some (c :: x) => .text (c :: x)
    | _ => inFile.getD (.text t.dflt)

/-- The configuration file and, where given, the flags give these settings their documented
values: for each setting what the file says about it, and no variable to consider. -/
def Configured (s : Start) (inFile : Setting → Option CVal) : Prop :=
  ∃ es, fileEntries s = some es ∧ (es.map (fun e => toLowerStr e.1)).Nodup ∧
    ∀ t ∈ settings, FileSays es t.name (inFile t) ∧ ((s.flags t.flag).isSome ∨ s.env t.var = none ∨ s.env t.var = some [])

/-- The documented value of the setting of that name. -/
def valueOf (s : Start) (inFile : Setting → Option CVal) (name : Str) : CVal :=
  match settings.find? (fun t => t.name = name) with
  | some t => documented s t (inFile t)
  | none => .text []

/-- White space. -/
def Blank (c : Char) : Prop := c ∈ [' ', '\t', '\n', '\r', '\x0b', '\x0c']

/-- The words of a text: separated by white space. -/
inductive Words : Str → List Str → Prop
  | nil (b : Str) : (∀ c ∈ b, Blank c) → Words b []
  | cons (b w s : Str) (ws : List Str) : (∀ c ∈ b, Blank c) → w ≠ [] → (∀ c ∈ w, ¬ Blank c) →
      (s = [] ∨ ∃ c s', s = c :: s' ∧ Blank c) → Words s ws → Words (b ++ w ++ s) (w :: ws)

/-- The value of a switch means on: a text that Go reads as true, the boolean, a number other
than 0. -/
def MeansOn : CVal → Prop
  | .text t => t ∈ [c!"1", c!"t", c!"T", c!"true", c!"TRUE", c!"True"]
  | .bool b => b = true
  | .int i => i ≠ 0
  | _ => False

/-- The value of a list setting means these words: those of a text, the items of a list. -/
inductive MeansWords : CVal → List Str → Prop
  | text {t : Str} {ws : List Str} : Words t ws → MeansWords (.text t) ws
  | list (ws : List Str) : MeansWords (.list ws) ws
  | bool (b : Bool) : MeansWords (.bool b) [if b then c!"true" else c!"false"]
  | int (i : Int) : MeansWords (.int i) [itoa i]
  | other (p : Str) : MeansWords (.other p) []

/-- The value of a text setting means this text. -/
inductive MeansText : CVal → Str → Prop
  | text (t : Str) : MeansText (.text t) t
  | bool (b : Bool) : MeansText (.bool b) (if b then c!"true" else c!"false")
  | int (i : Int) : MeansText (.int i) (itoa i)
  | list (l : List Str) : MeansText (.list l) []
  | other (p : Str) : MeansText (.other p) []

/-- The value of a number setting means this number, `int` being how texts are read. -/
inductive MeansInt (int : Str → Int) : CVal → Int → Prop
  | text (t : Str) : MeansInt int (.text t) (int t)
  | int (i : Int) : MeansInt int (.int i) i
  | off : MeansInt int (.bool false) 0
  | on : MeansInt int (.bool true) 1
  | list (l : List Str) : MeansInt int (.list l) 0
  | other (p : Str) : MeansInt int (.other p) 0

/-- How the value is printed: a list as its items in brackets. -/
def asPrinted : CVal → Str
  | .text t => t
  | .bool b => if b then c!"true" else c!"false"
  | .int i => itoa i
  | .list l => c!"[" ++ List.intercalate [' '] l ++ c!"]"
  | .other p => p

end Yot.Spec
