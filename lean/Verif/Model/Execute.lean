import Verif.Model.Output
/-
internal/instructions/execute.go, internal/overlays/workstream.go: the run, as a
transition system over all interleavings of its goroutines.
-/
namespace Yot

/-- The errors a run can end with: an overlay of a file failed (workstream.go:49),
the context was cancelled (execute.go:44-47), rendering failed (config.go:42-44),
writing failed (config.go:58,65). -/
inductive RunErr where
  | overlay (file : Nat) (e : Err)
  | canceled
  | render (file : Nat) (e : Err)
  | write (file : Nat)
deriving DecidableEq, Repr

/-- config.go:52-66: one rendered file, as handed to the operating system. -/
structure Out where
  file : Nat
  name : Str
  text : Str
deriving DecidableEq, Repr

/-- What a run is about.  `work i` are the workloads of file `i` in the order
queued (yamlfile.go:39-57), each a document index and a pointer to a shared overlay
object; `overlays0` are the overlay objects at the start.  `stops i`: having sent these
workloads, the sender of file `i` dereferences a nil pointer (yamlfile.go:42,48) instead
of closing the stream.  `nilIn p doc`: applying the overlay behind `p` to `doc`
dereferences one (workstream.go:46, documentquery.go:31-46, query.go:45).  `writeFails` is the
environment's decision, after the outputs so far, whether the next one fails. -/
structure Run where
  sed : Sed
  dflt : Str
  files : List YamlFile
  work : Nat → List (Nat × Nat)
  overlays0 : Nat → Overlay
  stops : Nat → Bool := fun _ => false
  nilIn : Nat → Node → Bool := fun _ _ => false
  emit : Bool → Node → Res Err Str
  style : List Str
  outDir : Str
  writeFails : List Out → Out → Bool

/-- The file with index `i` (execute.go:28). -/
def Run.file (R : Run) (i : Nat) : YamlFile := (R.files[i]?).getD {}

/-- No pointer is nil, and those in the workloads lead to the overlays of the files. (workstream.go:12-17) -/
def Run.Points (R : Run) : Prop :=
  (∀ i, i < R.files.length → (R.work i).map (fun w => Job.mk w.1 (R.overlays0 w.2)) = (R.file i).jobs) ∧
  (∀ i, i < R.files.length → R.stops i = false) ∧ ∀ p doc, R.nilIn p doc = false

/-- Where the goroutine started by `eg.Go` (execute.go:31-52) is: not started;
waiting in the handler's `range` (workstream.go:45); just received a workload;
inside `Apply` with the overlay as read; at the `select`; returned but not yet
counted as done by the group; done. -/
inductive Phase where
  | notStarted
  | receiving
  | received (doc ptr : Nat)
  | applying (doc ptr : Nat) (o : Overlay)
  | selecting
  | returned (r : Option RunErr)
  | done (r : Option RunErr)

/-- One file's goroutines: the worker and the sender `queueOverlays`
(execute.go:36) with the workloads it still has to send and whether it has closed
the stream; and the file's documents. -/
structure Worker where
  phase : Phase := .notStarted
  queue : List (Nat × Nat)
  closed : Bool := false
  docs : List Node

/-- Where `Execute` is: in the loop starting workers (execute.go:28-53), receiving
from the channel (execute.go:76), at the final `eg.Wait` (execute.go:64),
returned. -/
inductive Main where
  | spawning (next : Nat)
  | receiving
  | waiting
  | returned (r : Option RunErr)

/-- The state of a run.  `chan` is the buffer of `pChan`, `groupErr` the group's
first error, which is also when its context is cancelled.  `taken` is history: the
files received from the channel so far.  `log` are the outputs so far, including one
that failed. (execute.go:18-73) -/
structure State where
  workers : Nat → Worker
  overlays : Nat → Overlay
  chan : List Nat := []
  chanClosed : Bool := false
  groupErr : Option RunErr := none
  main : Main := .spawning 0
  taken : List Nat := []
  log : List Out := []
  crashed : Bool := false

/-- Replace one value of a function. (execute.go:30-55) -/
def upd {α : Type} (f : Nat → α) (i : Nat) (x : α) : Nat → α := fun j => if j = i then x else f j

/-- execute.go:19-26: the start of a run, the instructions having been read. -/
def State.init (R : Run) : State where
  workers := fun i => { queue := R.work i, docs := (R.file i).nodes }
  overlays := R.overlays0

/-- Replace one worker. (execute.go:31-54) -/
def State.setWorker (s : State) (i : Nat) (w : Worker) : State := { s with workers := upd s.workers i w }

/-- Does `Apply` reach `onMissing` (overlay.go:27-35)? -/
def reachesOnMissing (o : Overlay) (doc : Node) : Bool :=
  checkQueries o.documentQuery doc && (findAll o.query doc).isEmpty

/-- workstream.go:46-50 with the overlay as it was read: the document is edited, the
shared overlay object is written by `onMissing` (onmissing.go:31-35).
Simplification: the write and the edit are one step; other workers may read the
overlay before or after it. -/
def applyStep (R : Run) (s : State) (i : Nat) (w : Worker) (doc ptr : Nat) (o : Overlay) : State :=
  match w.docs[doc]? with
  | none => s.setWorker i { w with phase := .receiving }
  | some d =>
    if R.nilIn ptr d.label then { s with crashed := true } else
    let s' := if reachesOnMissing o d.label then
        { s with overlays := upd s.overlays ptr ((s.overlays ptr).resolve R.dflt) } else s
    match applyJob R.sed R.dflt o d with
    | .ok d' => s'.setWorker i { w with phase := .receiving, docs := w.docs.set doc d' }
    | .err e => s'.setWorker i { w with phase := .returned (some (.overlay i e)) }
    | .panic => { s' with crashed := true }

/-- execute.go:75-83 with config.go:36-73: take file `i` off the channel and post
process it. -/
def takeStep (R : Run) (s : State) (i : Nat) (rest : List Nat) : State :=
  let s' := { s with chan := rest, taken := s.taken ++ [i] }
  match rendering R.emit R.style (s.workers i).docs with
  | .ok none => s'
  | .ok (some t) =>
    let out : Out := { file := i, name := outputName R.outDir (R.file i), text := t }
    let s'' := { s' with log := s.log ++ [out] }
    if R.writeFails s.log out then { s'' with main := .returned (some (.write i)) } else s''
  | .err e => { s' with main := .returned (some (.render i e)) }
  | .panic => { s' with crashed := true }

/-- errgroup `Go`: the goroutine's result is recorded, the first error kept (and the
context cancelled), the goroutine counted as done. (execute.go:31-54) -/
def finishStep (s : State) (i : Nat) (w : Worker) (r : Option RunErr) : State :=
  { s.setWorker i { w with phase := .done r } with groupErr := s.groupErr.orElse (fun _ => r) }

/-- All goroutines of the group are done: `eg.Wait` returns. (execute.go:57-66) -/
def State.allDone (s : State) (n : Nat) : Prop := ∀ i, i < n → ∃ r, (s.workers i).phase = .done r

/-- One step of some goroutine; a crashed program takes none. (execute.go:18-83) -/
inductive RStep (R : Run) : State → State → Prop
  /-- execute.go:31: start the next worker and its sender. -/
  | spawn (s : State) (k : Nat) : s.crashed = false → s.main = .spawning k → k < R.files.length →
      RStep R s { s.setWorker k { s.workers k with phase := .receiving } with main := .spawning (k + 1) }
  /-- execute.go:55-60: start the closing goroutine, enter the handler. -/
  | listen (s : State) : s.crashed = false → s.main = .spawning R.files.length →
      RStep R s { s with main := .receiving }
  /-- workstream.go:31,45: unbuffered send and receive. -/
  | send (s : State) (i : Nat) (w : Nat × Nat) (q : List (Nat × Nat)) : s.crashed = false → i < R.files.length →
      (s.workers i).phase = .receiving → (s.workers i).queue = w :: q →
      RStep R s (s.setWorker i { s.workers i with phase := .received w.1 w.2, queue := q })
  /-- yamlfile.go:56: the sender closes the stream. -/
  | closeStream (s : State) (i : Nat) : s.crashed = false → i < R.files.length →
      ((s.workers i).phase = .notStarted → False) → (s.workers i).queue = [] → (s.workers i).closed = false →
      R.stops i = false →
      RStep R s (s.setWorker i { s.workers i with closed := true })
  /-- yamlfile.go:42,48: the sender dereferences a nil pointer. -/
  | senderNil (s : State) (i : Nat) : s.crashed = false → i < R.files.length →
      ((s.workers i).phase = .notStarted → False) → (s.workers i).queue = [] → (s.workers i).closed = false →
      R.stops i = true →
      RStep R s { s with crashed := true }
  /-- workstream.go:48: `Apply` reads the shared overlay. -/
  | read (s : State) (i doc ptr : Nat) : s.crashed = false → i < R.files.length →
      (s.workers i).phase = .received doc ptr →
      RStep R s (s.setWorker i { s.workers i with phase := .applying doc ptr (s.overlays ptr) })
  /-- workstream.go:48-50: the rest of `Apply`. -/
  | apply (s : State) (i doc ptr : Nat) (o : Overlay) : s.crashed = false → i < R.files.length →
      (s.workers i).phase = .applying doc ptr o →
      RStep R s (applyStep R s i (s.workers i) doc ptr o)
  /-- workstream.go:45,53: the stream is closed and the handler ends. -/
  | handled (s : State) (i : Nat) : s.crashed = false → i < R.files.length →
      (s.workers i).phase = .receiving → (s.workers i).queue = [] → (s.workers i).closed = true →
      RStep R s (s.setWorker i { s.workers i with phase := .selecting })
  /-- execute.go:42-43: send the file; the channel has room for every file. -/
  | deliver (s : State) (i : Nat) : s.crashed = false → i < R.files.length →
      (s.workers i).phase = .selecting → s.chanClosed = false → s.chan.length < R.files.length →
      RStep R s { s.setWorker i { s.workers i with phase := .returned none } with chan := s.chan ++ [i] }
  /-- execute.go:42: a send on a closed channel panics. -/
  | deliverClosed (s : State) (i : Nat) : s.crashed = false → i < R.files.length →
      (s.workers i).phase = .selecting → s.chanClosed = true →
      RStep R s { s with crashed := true }
  /-- execute.go:44-47: the context is cancelled. -/
  | giveUp (s : State) (i : Nat) : s.crashed = false → i < R.files.length →
      (s.workers i).phase = .selecting → s.groupErr.isSome = true →
      RStep R s (s.setWorker i { s.workers i with phase := .returned (some .canceled) })
  /-- errgroup: the goroutine ends. -/
  | finish (s : State) (i : Nat) (r : Option RunErr) : s.crashed = false → i < R.files.length →
      (s.workers i).phase = .returned r →
      RStep R s (finishStep s i (s.workers i) r)
  /-- execute.go:56-57: when all workers are done the channel is closed. -/
  | closeChan (s : State) : s.crashed = false → (∀ k, s.main = .spawning k → False) →
      s.allDone R.files.length → s.chanClosed = false →
      RStep R s { s with chanClosed := true }
  /-- execute.go:76-79. -/
  | take (s : State) (i : Nat) (rest : List Nat) : s.crashed = false → s.main = .receiving → s.chan = i :: rest →
      RStep R s (takeStep R s i rest)
  /-- execute.go:76,82: the channel is closed and drained. -/
  | drained (s : State) : s.crashed = false → s.main = .receiving → s.chan = [] → s.chanClosed = true →
      RStep R s { s with main := .waiting }
  /-- execute.go:64-68. -/
  | wait (s : State) : s.crashed = false → s.main = .waiting → s.allDone R.files.length →
      RStep R s { s with main := .returned s.groupErr }

/-- The states some schedule leads to. (execute.go:18-83) -/
inductive Reach (R : Run) : State → Prop
  | start : Reach R (State.init R)
  | step {s s' : State} : Reach R s → RStep R s s' → Reach R s'

end Yot
