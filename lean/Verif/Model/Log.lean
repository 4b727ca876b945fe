import Verif.Model.Execute
import Verif.Model.Process
/-
The log (standard error): internal/overlays/{workstream,overlay,documentquery,onmissing,query}.go,
internal/instructions/config.go, internal/actions/format.go, internal/commands/root.go:131-153.
go-logging is external (modelled from its documentation).
-/
namespace Yot

/-- go-logging `Level`. (root.go:142) -/
inductive Level where
  | critical | error | warning | notice | info | debug
deriving DecidableEq, Repr

/-- go-logging: the levels in order, `CRITICAL` being 0. (root.go:142-147) -/
def Level.rank : Level → Nat
  | .critical => 0 | .error => 1 | .warning => 2 | .notice => 3 | .info => 4 | .debug => 5

/-- go-logging `LogLevel`, see `isLevel`. (root.go:142) -/
def levelOf (t : Str) : Option Level :=
  let w := t.map Char.toLower
  if w = c!"critical" then some .critical
  else if w = c!"error" then some .error
  else if w = c!"warning" then some .warning
  else if w = c!"notice" then some .notice
  else if w = c!"info" then some .info
  else if w = c!"debug" then some .debug
  else none

/-- go-logging `IsEnabledFor`: with the level set to `set`, messages of level `m` are shown.
(root.go:147) -/
def Level.shows (set m : Level) : Bool := decide (m.rank ≤ set.rank)

/-- The messages, by their parts (their wording is not represented). -/
inductive Msg where
  /-- workstream.go:46 -/
  | processing (name path : Str) (doc : Nat)
  /-- overlay.go:27 -/
  | checking (name : Str)
  /-- documentquery.go:25 -/
  | noDocumentQueries
  /-- documentquery.go:32 -/
  | conditionsMet
  /-- documentquery.go:38 -/
  | conditionsNotMet
  /-- query.go:88 -/
  | searching (path : Str)
  /-- overlay.go:36 -/
  | noResults
  /-- onmissing.go:46 -/
  | ignoringNoInject (action query : Str)
  /-- onmissing.go:81 -/
  | ignoringNoPath (action query : Str)
  /-- overlay.go:60 -/
  | applying (name action : Str) (row col : Nat)
  /-- config.go:48 -/
  | omitted (path : Str)
  /-- config.go:56 -/
  | final (text : Str)
deriving DecidableEq, Repr

/-- `log.Noticef` (workstream.go:46), `log.Debugf` (all others). -/
def Msg.level : Msg → Level
  | .processing _ _ _ => .notice
  | _ => .debug

/-- query.go:84-100 `Queries.Find`: one message for each query, searched or not. -/
def findMsgs (qs : List Query) : List Msg := qs.map (fun q => .searching q.str)

/-- documentquery.go:50-63: the conditions are checked until one fails. -/
def checkQueryMsgs (n : Node) : DocumentQuery → List Msg
  | [] => []
  | c :: cs => findMsgs c.query ++ if checkCondition c n then checkQueryMsgs n cs else []

/-- documentquery.go:30-40. -/
def checkQueriesMsgsFrom (n : Node) : List DocumentQuery → List Msg
  | [] => [.conditionsNotMet]
  | q :: qs => checkQueryMsgs n q ++ if checkQuery q n then [.conditionsMet] else checkQueriesMsgsFrom n qs

/-- documentquery.go:23-41 `checkQueries`. -/
def checkQueriesMsgs (dqs : List DocumentQuery) (n : Node) : List Msg :=
  if dqs.isEmpty then [.noDocumentQueries] else checkQueriesMsgsFrom n dqs

/-- overlay.go:58-81 `doAction`: a message before each match is handled; it ends at the first
error.  Simplification: the position is the one the match had when it was found. -/
def actionMsgs (E : Sed) (o : Overlay) (root : Node) : List Node → List Msg
  | [] => []
  | n :: ns => .applying o.name o.action.str n.hd.row n.hd.col ::
    match doOne E o root n.hd.addr with
    | .ok r => actionMsgs E o r ns
    | _ => []

/-- onmissing.go:52-74 `doInjectPath`: the injected paths are searched for, once they are there. -/
def injectMsgs (E : Sed) (ip : List Query) (node : Node) : List Msg :=
  match newPaths (ip.map Query.str) with
  | .ok bps =>
    match buildPaths E bps with
    | .ok y =>
      match mergeNode E node y with
      | .ok _ => findMsgs ip
      | _ => []
    | _ => []
  | _ => []

/-- onmissing.go:30-50 `onMissing`, onmissing.go:76-93 `handleInjectPath`. -/
def onMissingMsgs (E : Sed) (dflt : Str) (o : Overlay) (node : Node) : List Msg :=
  let text := joinWith ',' (o.query.map Query.str)
  match (o.onMissing.resolve dflt).action with
  | .inject =>
    match newPaths (o.query.map Query.str) with
    | .err .invalidPathSyntax =>
      match o.onMissing.injectPath with
      | none => [.ignoringNoPath o.action.str text]
      | some ip => injectMsgs E ip node
    | .ok _ => injectMsgs E o.query node
    | _ => []
  | _ => [.ignoringNoInject o.action.str text]

/-- overlay.go:26-42 `Apply`. -/
def applyMsgs (E : Sed) (dflt : Str) (o : Overlay) (doc : Node) : List Msg :=
  .checking o.name :: checkQueriesMsgs o.documentQuery doc ++
    if checkQueries o.documentQuery doc then
      findMsgs o.query ++
        let results := findAll o.query doc
        if results.isEmpty then .noResults :: onMissingMsgs E dflt o doc
        else actionMsgs E o doc results
    else []

/-- format.go:91-96: the commands of the markers in a text that are warned of, at level
`Warning`, one message each. -/
def formatWarnings (E : Sed) (x : Vals) (s : Str) : List Str :=
  (findMatches s).filterMap (fun m =>
    match m.cmd with
    | none => none
    | some c =>
      if c.isEmpty then none
      else if E.compile c && (E.run c ((sanitizeVals x).get m.letter)).2 then none else some c)

/-- config.go:36-73 `doPostProcessing`, in a run that writes files. -/
def takeMsgs (R : Run) (s : State) (i : Nat) : List Msg :=
  match rendering R.emit R.style (s.workers i).docs with
  | .ok none => [.omitted (R.file i).path]
  | .ok (some t) => [.final t]
  | _ => []

/-- A step of some goroutine and what it logs; the worker of the message (or the file) is
noted with it.  Simplification: what one call of `Apply` logs is one block. (execute.go:18-83,
workstream.go:44-54) -/
inductive LStep (R : Run) : State → List (Nat × Msg) → State → Prop
  /-- workstream.go:46: the message, before `Apply` reads the overlay. -/
  | read (s : State) (i doc ptr : Nat) : s.crashed = false → i < R.files.length →
      (s.workers i).phase = .received doc ptr →
      LStep R s [(i, .processing (s.overlays ptr).name (R.file i).path doc)]
        (s.setWorker i { s.workers i with phase := .applying doc ptr (s.overlays ptr) })
  /-- workstream.go:48-50. -/
  | apply (s : State) (i doc ptr : Nat) (o : Overlay) : s.crashed = false → i < R.files.length →
      (s.workers i).phase = .applying doc ptr o →
      LStep R s
        ((match (s.workers i).docs[doc]? with
          | some d => applyMsgs R.sed R.dflt o d.label
          | none => []).map (fun m => (i, m)))
        (applyStep R s i (s.workers i) doc ptr o)
  /-- execute.go:76-79. -/
  | take (s : State) (i : Nat) (rest : List Nat) : s.crashed = false → s.main = .receiving → s.chan = i :: rest →
      LStep R s ((takeMsgs R s i).map (fun m => (i, m))) (takeStep R s i rest)
  /-- All other steps log nothing. -/
  | other (s s' : State) : RStep R s s' → s'.taken = s.taken →
      (∀ i doc ptr, (s.workers i).phase = .received doc ptr → (s'.workers i).phase = .received doc ptr) →
      (∀ i doc ptr o, (s.workers i).phase = .applying doc ptr o → (s'.workers i).phase = .applying doc ptr o) →
      LStep R s [] s'

/-- The states some schedule leads to, and what has been logged on the way. (execute.go:18-83) -/
inductive Logged (R : Run) : State → List (Nat × Msg) → Prop
  | start : Logged R (State.init R) []
  | step {s s' : State} {l m : List (Nat × Msg)} : Logged R s l → LStep R s m s' → Logged R s' (l ++ m)

/-- What of a log standard error shows with the level set to `set`. (root.go:147) -/
def shown (set : Level) (l : List (Nat × Msg)) : List Msg := (l.map Prod.snd).filter (fun m => set.shows m.level)

end Yot
