import Verif.Model.Execute
/-
What a run is supposed to do.
-/
namespace Yot.Spec

/-- What one workload makes of the documents of its file. -/
def workload (R : Run) (docs : List Node) (w : Nat × Nat) : Res Err (List Node) :=
  match docs[w.1]? with
  | none => .ok docs
  | some d =>
    if R.nilIn w.2 d.label then .panic
    else applyJob R.sed R.dflt (R.overlays0 w.2) d >>= fun d' => .ok (docs.set w.1 d')

/-- What workloads make of the documents, in order, up to the first error or crash. -/
def workloads (R : Run) (docs : List Node) (ws : List (Nat × Nat)) : Res Err (List Node) :=
  ws.foldlM (workload R) docs

/-- What the overlays of file `i` make of its documents, one after the other; if after
them there is a nil pointer, a crash. -/
def resultFor (R : Run) (i : Nat) : Res Err (List Node) :=
  workloads R (R.file i).nodes (R.work i) >>= fun docs => if R.stops i then .panic else .ok docs

/-- What is to be output for file `i`: its overlays applied in order, rendered,
under its output name; none if that fails or is empty. -/
def outputFor (R : Run) (i : Nat) : Option Out :=
  match resultFor R i with
  | .ok docs =>
    match rendering R.emit R.style docs with
    | .ok (some t) => some { file := i, name := outputName R.outDir (R.file i), text := t }
    | _ => none
  | _ => none

/-- All outputs, in the order in which the files are listed. -/
def expected (R : Run) : List Out := (List.range R.files.length).filterMap (outputFor R)

/-- File `i` can be processed: its overlays apply and it renders. -/
def Processes (R : Run) (i : Nat) : Prop :=
  ∃ docs r, resultFor R i = .ok docs ∧ rendering R.emit R.style docs = .ok r

/-- Processing file `i` can crash: its overlays or its rendering do; or its overlays do not
fail before the last one and after it there is a nil pointer (even if the last one fails: it
has been handed over by then). -/
def Crashes (R : Run) (i : Nat) : Prop :=
  resultFor R i = .panic ∨
  (∃ docs, resultFor R i = .ok docs ∧ rendering R.emit R.style docs = .panic) ∨
  (R.stops i = true ∧ ∃ docs, workloads R (R.file i).nodes (R.work i).dropLast = .ok docs)

/-- `Execute` has returned with this result. -/
def Returned (s : State) (r : Option RunErr) : Prop := s.main = .returned r

/-- The content of a file after the outputs. -/
def contentOf (log : List Out) (name : Str) : Option Str :=
  ((log.filter (fun o => o.name = name)).getLast?).map Out.text

/-- What standard output shows with the stdout option. -/
def printed (log : List Out) : Str := log.flatMap Out.text

end Yot.Spec
