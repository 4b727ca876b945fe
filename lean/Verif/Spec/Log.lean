import Verif.Model.Log
import Verif.Spec.Execute
/-
What the log is supposed to tell.
-/
namespace Yot.Spec

/-- The names of the log levels. -/
def levelName : Level → Str
  | .critical => c!"critical" | .error => c!"error" | .warning => c!"warning" | .notice => c!"notice" | .info => c!"info" | .debug => c!"debug"

/-- The announcement of a workload of file `i`: which overlay, which file, which document. -/
def announcement (R : Run) (i : Nat) (j : Job) : Msg := .processing j.overlay.name (R.file i).path j.index

/-- What has been logged about file `i` with the level set to `set`. -/
def about (set : Level) (l : List (Nat × Msg)) (i : Nat) : List Msg := shown set (l.filter (fun x => x.1 = i))

end Yot.Spec
