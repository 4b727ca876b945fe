import Verif.Model.HeapApply
import Verif.Model.Execute
/-
Generated by tools/steps.py from Model/Heap and Model/HeapApply: the same functions, every
single access to memory being a step of its own, so that the goroutines of a run can be
interleaved between any two accesses.
-/
namespace Yot

/-- A goroutine's remaining work: it has ended, or its next access to memory (a node, or
the field `OnMissing.Action` of an overlay) and how it goes on.  A whole struct is read or
written at once. (merge.go:22-215, onmissing.go:30-50) -/
inductive Prog (α : Type) : Type where
  | ret (a : α)
  | fail (e : Err)
  | crash
  | stop
  | rd (p : Nat) (k : Cell → Prog α)
  | wr (p : Nat) (c : Cell) (k : Prog α)
  | alloc (c : Cell) (k : Nat → Prog α)
  | rdAct (o : Nat) (k : OnMissingAction → Prog α)
  | wrAct (o : Nat) (a : OnMissingAction) (k : Prog α)

namespace Prog

/-- Sequencing. (merge.go:27-33) -/
def bind {α β : Type} : Prog α → (α → Prog β) → Prog β
  | .ret a, f => f a
  | .fail e, _ => .fail e
  | .crash, _ => .crash
  | .stop, _ => .stop
  | .rd p k, f => .rd p (fun c => (k c).bind f)
  | .wr p c k, f => .wr p c (k.bind f)
  | .alloc c k, f => .alloc c (fun p => (k p).bind f)
  | .rdAct o k, f => .rdAct o (fun a => (k a).bind f)
  | .wrAct o a k, f => .wrAct o a (k.bind f)

instance : Monad Prog where
  pure := .ret
  bind := bind

end Prog

/-- Read `*p`. (merge.go:38) -/
def rdP (p : Nat) : Prog Cell := .rd p .ret
/-- Write `*p`. (merge.go:136-166) -/
def wrP (p : Nat) (c : Cell) : Prog Unit := .wr p c (.ret ())
/-- Allocate a node. (merge.go:203-212) -/
def allocP (c : Cell) : Prog Nat := .alloc c .ret
/-- Return an error. (merge.go:52-54) -/
def failP {α : Type} (e : Err) : Prog α := .fail e
/-- A run-time panic. (merge.go:22-36) -/
def crashP {α : Type} : Prog α := .crash
/-- Out of fuel. (merge.go:38-55 (recursion)) -/
def stopP {α : Type} : Prog α := .stop
/-- A call whose error is dropped, the nil pointer returned with it being used next.
(onmissing.go:58-60) -/
def orCrashP {α : Type} : Prog α → Prog α
  | .ret a => .ret a
  | .fail _ => .crash
  | .crash => .crash
  | .stop => .stop
  | .rd p k => .rd p (fun c => orCrashP (k c))
  | .wr p c k => .wr p c (orCrashP k)
  | .alloc c k => .alloc c (fun p => orCrashP (k p))
  | .rdAct o k => .rdAct o (fun a => orCrashP (k a))
  | .wrAct o a k => .wrAct o a (orCrashP k)
/-- Read `o.OnMissing.Action`. (onmissing.go:31, 42) -/
def rdActP (o : Nat) : Prog OnMissingAction := .rdAct o .ret
/-- Write `o.OnMissing.Action`. (onmissing.go:33) -/
def wrActP (o : Nat) (a : OnMissingAction) : Prog Unit := .wrAct o a (.ret ())

/-- Run a function over a list of pointers, in order. (format.go:20-71, merge.go:79-113) -/
def mapP {α : Type} (f : Nat → Prog α) : List Nat → Prog (List α)
  | [] => pure []
  | p :: ps => do
    let x ← f p
    let xs ← mapP f ps
    pure (x :: xs)

/-- `reprint.FromTo` on one node: a deep copy in new memory (merge.go:206). -/
def copyP : Nat → Nat → Prog Nat
  | 0, _ => stopP
  | fuel + 1, p => do
    let c ← rdP p
    let kids ← mapP (copyP fuel) c.content
    allocP { c with content := kids }

/-- format.go:21-38 `sanitizeNode` on one node: children first for the four kinds
that have them, then the node's own strings. -/
def sanitizeP (E : Sed) : Nat → Nat → Prog Unit
  | 0, _ => stopP
  | fuel + 1, p => do
    let c ← rdP p
    match c.hd.kind with
    | .scalar => pure ()
    | .zero => pure ()
    | _ => do
      let _ ← mapP (sanitizeP E fuel) c.content
      pure ()
    let c ← rdP p
    wrP p { c with hd := sanitizeHdr E c.hd }

/-- merge.go:203-215 `addNode`. -/
def addNodeP (E : Sed) (fuel : Nat) (p : Nat) (nv : List Nat) : Prog Unit := do
  let temp ← mapP (copyP fuel) nv
  let _ ← mapP (sanitizeP E fuel) temp
  let c ← rdP p
  wrP p ⟨{ c.hd with nilc := c.hd.nilc && temp.isEmpty }, c.content ++ temp⟩

/-- merge.go:168-201 `mergeComments(o, n, values...)`. -/
def mergeCommentsP (E : Sed) (p q : Nat) (vals : List Str) : Prog Unit := do
  let o ← rdP p
  let n ← rdP q
  wrP p { o with hd := mergeComments E o.hd n.hd vals }

/-- merge.go:136-166 `mergeScalar(o, n, values...)`. -/
def mergeScalarP (E : Sed) (p q : Nat) (vals : List Str) : Prog Unit := do
  let o ← rdP p
  let x := formatVals o.hd vals
  mergeCommentsP E p q vals
  let o ← rdP p
  let n ← rdP q
  if o.hd.kind ≠ .scalar then
    wrP p ⟨{ o.hd with kind := .scalar, nilc := true, value := format E n.hd.value x }, []⟩
  else
    wrP p { o with hd := { o.hd with value := format E n.hd.value x } }

/-- merge.go:73-78. -/
def toMappingP (p : Nat) : Prog Unit := do
  let o ← rdP p
  if o.hd.kind ≠ .mapping then
    wrP p ⟨{ o.hd with kind := .mapping, tag := c!"!!map", value := [], nilc := false }, []⟩
  else pure ()

/-- merge.go:118-123. -/
def toSequenceP (p : Nat) : Prog Unit := do
  let o ← rdP p
  if o.hd.kind ≠ .sequence then
    wrP p ⟨{ o.hd with kind := .sequence, tag := c!"!!seq", value := [], nilc := false }, []⟩
  else pure ()

/-- merge.go:117-134 `mergeArray`. -/
def mergeArrayP (E : Sed) (fuel : Nat) (p q : Nat) : Prog Unit := do
  toSequenceP p
  let n ← rdP q
  if n.hd.nilc && n.content.isEmpty then pure ()
  else do
    let o ← rdP p
    mergeCommentsP E p q [o.hd.value]
    addNodeP E fuel p n.content

mutual
/-- merge.go:38-55 `merge(o, n, keyName...)`, with 57-67 `mergeDocument`. -/
def mergeP (E : Sed) : Nat → Nat → Nat → List Str → Prog Unit
  | 0, _, _, _ => stopP
  | fuel + 1, p, q, vals => do
    let n ← rdP q
    match n.hd.kind with
    | .document => do
      let o ← rdP p
      if (o.hd.nilc && o.content.isEmpty) || (n.hd.nilc && n.content.isEmpty) then pure ()
      else do
        mergeCommentsP E p q [o.hd.value]
        let o ← rdP p
        let n ← rdP q
        match o.content, n.content with
        | oc :: _, nc :: _ => mergeP E fuel oc nc [o.hd.value]
        | _, _ => crashP
    | .mapping => mergeMapP E fuel p q 0
    | .sequence => mergeArrayP E fuel p q
    | .scalar => do
      mergeScalarP E p q vals
      let o ← rdP p
      let n ← rdP q
      wrP p { o with hd := { o.hd with tag := n.hd.tag } }
    | .alias => failP .mergeUnsupportedType
    | .zero => do
      let o ← rdP p
      wrP p { o with hd := { o.hd with tag := n.hd.tag } }
/-- merge.go:69-115 `mergeMap`, the outer loop from `ni` on. -/
def mergeMapP (E : Sed) : Nat → Nat → Nat → Nat → Prog Unit
  | 0, _, _, _ => stopP
  | fuel + 1, p, q, ni => do
    let n ← rdP q
    match n.content.drop ni with
    | nk :: nv :: _ => do
      toMappingP p
      let found ← mergeScanP E fuel p q ni 0 false
      let _ ← (if found then pure () else addNodeP E fuel p [nk, nv] : Prog Unit)
      mergeMapP E fuel p q (ni + 2)
    | _ => pure ()
/-- merge.go:80-105, the inner loop from `oi` on; `found` is `resultFound`. -/
def mergeScanP (E : Sed) : Nat → Nat → Nat → Nat → Nat → Bool → Prog Bool
  | 0, _, _, _, _, _ => stopP
  | fuel + 1, p, q, ni, oi, found => do
    let o ← rdP p
    match o.content.drop oi with
    | ok :: ov :: _ => do
      let n ← rdP q
      match n.content.drop ni with
      | nk :: nv :: _ => do
        let ck ← rdP nk
        let cok ← rdP ok
        if !checkForMarkers ck.hd.value && cok.hd.value ≠ ck.hd.value then
          mergeScanP E fuel p q ni (oi + 2) found
        else do
          let cov ← rdP ov
          mergeCommentsP E ok nk [cov.hd.value, cok.hd.value]
          mergeP E fuel ov nv [cok.hd.value]
          if !checkForMarkers ck.hd.value then pure true
          else do
            mergeScalarP E ok nk [cov.hd.value, cok.hd.value]
            mergeScanP E fuel p q ni (oi + 2) true
      | _ => crashP
    | _ => pure found
end

/-- replace.go:13-26 `ReplaceNode(original, replace)`: `*original` becomes a deep
copy of `*replace`, with the comments merged into a copy of the old struct. -/
def replaceP (E : Sed) (fuel : Nat) (p q : Nat) : Prog Unit := do
  let ov ← rdP p
  let r ← rdP q
  let kids ← mapP (copyP fuel) r.content
  wrP p ⟨{ r.hd with addr := p }, kids⟩
  let o ← rdP p
  let c := mergeComments E ov.hd o.hd []
  wrP p { o with hd := { o.hd with head := c.head, line := c.line, foot := c.foot } }

/-- combine.go:17-59 `CombineNode(originalValue, newValue)`. -/
def combineP (E : Sed) (p q : Nat) : Prog Unit := do
  let o ← rdP p
  let n ← rdP q
  if o.hd.kind ≠ .scalar ∨ n.hd.kind ≠ .scalar then failP .combineOnlyForScalars
  else do
    mergeCommentsP E p q []
    let o ← rdP p
    let n ← rdP q
    if o.hd.tag = c!"!!int" then
      match atoi o.hd.value, atoi n.hd.value with
      | some a, some b => wrP p { o with hd := { o.hd with value := itoa (wrap64 (a + b)) } }
      | _, _ => failP .notAnInt
    else if o.hd.tag = c!"!!bool" then
      match parseBool o.hd.value, parseBool n.hd.value with
      | some a, some b => wrP p { o with hd := { o.hd with value := formatBool (a && b) } }
      | _, _ => failP .notABool
    else wrP p { o with hd := { o.hd with value := o.hd.value ++ n.hd.value } }

mutual
/-- delete.go:10-56 `DeleteNode(pn, child)`: the loop ranges over `Content` as it is
when the loop starts. -/
def deleteP : Nat → Nat → Nat → Prog Unit
  | 0, _, _ => stopP
  | fuel + 1, p, child => do
    let c ← rdP p
    deleteLoopP fuel p child 0 c.content
/-- delete.go:11-54, the loop from index `i` on. -/
def deleteLoopP : Nat → Nat → Nat → Nat → List Nat → Prog Unit
  | 0, _, _, _, _ => stopP
  | _ + 1, _, _, _, [] => pure ()
  | fuel + 1, p, child, i, c :: cs =>
    if c ≠ child then do
      let x ← rdP c
      let _ ← (if x.hd.nilc && x.content.isEmpty then pure () else deleteP fuel c child : Prog Unit)
      deleteLoopP fuel p child (i + 1) cs
    else do
      let pn ← rdP p
      let r := cutRange pn.hd.kind i
      if r.2 ≤ pn.content.length then
        wrP p ⟨{ pn.hd with nilc := false }, pn.content.take r.1 ++ pn.content.drop r.2⟩
      else crashP
end

/-- style.go:73-84 `setStyle` on one node. -/
def setStyleP (s : Nat) : Nat → Nat → Prog Unit
  | 0, _ => stopP
  | fuel + 1, p => do
    let n ← rdP p
    match n.hd.kind with
    | .zero => pure ()
    | .scalar => wrP p { n with hd := { n.hd with style := s } }
    | _ => do
      wrP p { n with hd := { n.hd with style := s } }
      let _ ← mapP (setStyleP s fuel) n.content
      pure ()

/-- overlay.go:62-77, one iteration of `doAction`: `root` points to the document,
`p` is the match, `v` points to the overlay's value. -/
def doOneP (E : Sed) (fuel : Nat) (action : Action) (root v p : Nat) : Prog Unit :=
  match action with
  | .delete => deleteP fuel root p
  | .replace => replaceP E fuel p v
  | .combine => combineP E p v
  | _ => mergeP E fuel p v []

/-- overlay.go:58-81 `doAction`. -/
def doActionP (E : Sed) (fuel : Nat) (action : Action) (root v : Nat) (ps : List Nat) : Prog Unit := do
  let _ ← mapP (doOneP E fuel action root v) ps
  pure ()

/-- Follow the pointers from `p`: the tree a search in `*p` walks. (query.go:43-47, 84-100) -/
def readP : Nat → Nat → Prog Node
  | 0, _ => stopP
  | fuel + 1, p => do
    let c ← rdP p
    let kids ← mapP (readP fuel) c.content
    pure (.mk c.hd kids)

mutual
/-- Put a tree into new memory: the closures made by `newPath`. (path.go:76-94, 144-159,
173-204, 284-323) -/
def storeP : Node → Prog Nat
  | .mk hd cs => do
    let kids ← storesP cs
    allocP ⟨hd, kids⟩
/-- On lists: the loop of `BuildPaths`. (path.go:121-130) -/
def storesP : List Node → Prog (List Nat)
  | [] => pure []
  | c :: cs => do
    let p ← storeP c
    let ps ← storesP cs
    pure (p :: ps)
end

/-- path.go:120-138 `BuildPaths`, and merge.go:22-36 `MergeNode(yamlNodes...)` on its
pointers: the nodes of each path are new; the others are merged into the first, which is
returned.  The trees `bps` are what the closures of path.go:76-324 allocate. -/
def buildPathsP (E : Sed) (fuel : Nat) (bps : List Node) : Prog Nat := do
  let ps ← storesP bps
  match ps with
  | [] => crashP
  | p :: qs => do
    let _ ← mapP (fun q => mergeP E fuel p q []) qs
    pure p

/-- onmissing.go:52-74 `doInjectPath(ip, node)`; after an error of `BuildPaths` the node
`y` is nil. -/
def doInjectPathP (E : Sed) (fuel : Nat) (v : Nat) (ip : List Query) (root : Nat) : Prog Unit :=
  match newPaths (ip.map Query.str) with
  | .err e => failP e
  | .panic => crashP
  | .ok bps => do
    let y ← orCrashP (buildPathsP E fuel bps)
    mergeP E fuel root y []
    let t ← readP fuel root
    doActionP E fuel .replace root v ((findAll ip t).map (fun m => m.hd.addr))

/-- onmissing.go:76-93 `handleInjectPath`. -/
def handleInjectPathP (E : Sed) (fuel : Nat) (o : Overlay) (v : Nat) (root : Nat) : Prog Unit :=
  match newPaths (o.query.map Query.str) with
  | .err .invalidPathSyntax =>
    match o.onMissing.injectPath with
    | none => pure ()
    | some ip => doInjectPathP E fuel v ip root
  | .err e => failP e
  | .panic => crashP
  | .ok _ => doInjectPathP E fuel v o.query root

/-- onmissing.go:30-50 `onMissing`; `ptr` points to the overlay `o`, of which the field
`OnMissing.Action` is in memory shared with the other goroutines. -/
def onMissingP (E : Sed) (dflt : Str) (fuel : Nat) (ptr : Nat) (o : Overlay) (v : Nat) (root : Nat) : Prog Unit := do
  let a ← rdActP ptr
  let _ ← (if a = .default ∧ isInjectWord dflt then wrActP ptr .inject else pure () : Prog Unit)
  let a ← rdActP ptr
  match a with
  | .inject => handleInjectPathP E fuel o v root
  | _ => pure ()

/-- overlay.go:26-42 `Apply`. -/
def applyP (E : Sed) (dflt : Str) (fuel : Nat) (ptr : Nat) (o : Overlay) (v : Nat) (root : Nat) : Prog Unit := do
  let t ← readP fuel root
  if !checkQueries o.documentQuery t then pure ()
  else
    let results := findAll o.query t
    if results.isEmpty then onMissingP E dflt fuel ptr o v root
    else doActionP E fuel o.action root v (results.map (fun m => m.hd.addr))

/-- workstream.go:12-17 `workload`: the pointers to the overlay and to its value, the
overlay's other fields, and the index of the document. -/
structure JobP where
  index : Nat
  ptr : Nat
  overlay : Overlay
  value : Nat

/-- workstream.go:44-54 `StartHandler` on a sequence of workloads. -/
def handleJobsP (E : Sed) (dflt : Str) (fuel : Nat) (roots : List Nat) : List JobP → Prog Unit
  | [] => pure ()
  | j :: js => do
    let _ ← (match roots[j.index]? with
      | none => pure ()
      | some p => applyP E dflt fuel j.ptr j.overlay j.value p : Prog Unit)
    handleJobsP E dflt fuel roots js

/-- config.go:120-137, the memory accesses of `encodeNodes` for one document: it is
skipped if empty; else its style is set, and it is read by the encoder. -/
def encodeOneP (style fuel p : Nat) : Prog (Option Node) := do
  let c ← rdP p
  if c.content.isEmpty then pure none
  else do
    setStyleP style fuel p
    let t ← readP fuel p
    pure (some t)

/-- execute.go:31-54 and config.go:36-47: all memory accesses for one file, by its worker
and then, after the file was passed on through the channel, by the main goroutine; the
result is what the encoder is given. -/
def fileP (E : Sed) (dflt : Str) (style : Nat) (fuel : Nat) (roots : List Nat) (js : List JobP) : Prog (List (Option Node)) := do
  handleJobsP E dflt fuel roots js
  mapP (encodeOneP style fuel) roots

/-- A pointer: to a node that was there before the workers were started, or to the one that
goroutine `t` calls `a`.  Simplification: a goroutine names the nodes that it allocates by
its own numbers, from `base` on (new nodes get new addresses, whoever allocates them).
(execute.go:31-54) -/
inductive Ptr where
  | old (a : Nat)
  | new (t a : Nat)
deriving DecidableEq, Repr

/-- A node in the shared memory: its fields, its own address, its children.
(execute.go:31-54) -/
structure GCell where
  hd : Hdr := {}
  self : Ptr
  content : List Ptr := []
deriving DecidableEq, Repr

/-- The pointer that goroutine `t` calls `a`. (execute.go:31-54) -/
def toPtr (base t a : Nat) : Ptr := if a < base then .old a else .new t a

/-- What goroutine `t` calls this pointer, unless it points to memory of another one.
(execute.go:31-54) -/
def fromPtr (t : Nat) : Ptr → Option Nat
  | .old a => some a
  | .new s a => if s = t then some a else none

/-- A node as goroutine `t` stores it. (execute.go:31-54) -/
def toShared (base t : Nat) (c : Cell) : GCell :=
  ⟨{ c.hd with addr := 0 }, toPtr base t c.hd.addr, c.content.map (toPtr base t)⟩

/-- A node as goroutine `t` sees it, unless it refers to memory of another one.
(execute.go:31-54) -/
def fromShared (t : Nat) (g : GCell) : Option Cell :=
  match fromPtr t g.self, g.content.mapM (fromPtr t) with
  | some a, some ps => some ⟨{ g.hd with addr := a }, ps⟩
  | _, _ => none

/-- The state of all goroutines: the shared memory (nodes and actions of overlays), and for
each goroutine its next name for a new node and its remaining work.  `mixed`: some
goroutine has come upon a node that refers to memory allocated by another one.
(execute.go:31-54) -/
structure World (α : Type) where
  node : Ptr → GCell
  act : Nat → OnMissingAction
  next : Nat → Nat
  prog : Nat → Prog α
  mixed : Bool := false

/-- Write to the shared memory. (execute.go:31-54) -/
def World.put {α : Type} (s : World α) (p : Ptr) (g : GCell) : World α :=
  { s with node := fun q => if q = p then g else s.node q }

/-- Let goroutine `t` go on with `k`. (execute.go:31-54) -/
def World.goOn {α : Type} (s : World α) (t : Nat) (k : Prog α) : World α := { s with prog := upd s.prog t k }

/-- One access to memory by goroutine `t`, at any time. (execute.go:31-54) -/
inductive Access {α : Type} (base : Nat) (t : Nat) (s : World α) : World α → Prop
  | rd {p k c} : s.prog t = .rd p k → fromShared t (s.node (toPtr base t p)) = some c → Access base t s (s.goOn t (k c))
  | mixed {p k} : s.prog t = .rd p k → fromShared t (s.node (toPtr base t p)) = none → Access base t s { s with mixed := true }
  | wr {p c k} : s.prog t = .wr p c k → Access base t s ((s.put (toPtr base t p) (toShared base t c)).goOn t k)
  | alloc {c k} : s.prog t = .alloc c k → Access base t s
      ({ s.put (.new t (s.next t)) (toShared base t { c with hd := { c.hd with addr := s.next t } }) with
          next := upd s.next t (s.next t + 1) }.goOn t (k (s.next t)))
  | rdAct {o k} : s.prog t = .rdAct o k → Access base t s (s.goOn t (k (s.act o)))
  | wrAct {o a k} : s.prog t = .wrAct o a k → Access base t s ({ s with act := upd s.act o a }.goOn t k)

/-- The states that some interleaving of the goroutines leads to. (execute.go:31-54) -/
inductive Interleaved {α : Type} (base : Nat) (s0 : World α) : World α → Prop
  | start : Interleaved base s0 s0
  | step {s s' t} : Interleaved base s0 s → Access base t s s' → Interleaved base s0 s'

/-- The start: memory as the files were read, the workers' programs. (execute.go:18-31) -/
def World.init {α : Type} (h : Heap) (act : Nat → OnMissingAction) (prog : Nat → Prog α) : World α where
  node := fun p => match p with
    | .old a => toShared h.next 0 (h.get a)
    | .new t a => { self := .new t a }
  act := act
  next := fun _ => h.next
  prog := prog

/-- The workloads of file `i`, with the pointers. (workstream.go:12-31) -/
def Run.jobsP (R : Run) (i : Nat) : List JobP :=
  (R.work i).map (fun w => ⟨w.1, w.2, R.overlays0 w.2, (R.overlays0 w.2).value.hd.addr⟩)

/-- The goroutines of a run when they are started: goroutine `i` works on file `i`, whose
documents and the overlays' values lie in the memory `h`. (execute.go:18-54) -/
def Run.world (R : Run) (h : Heap) (fuel : Nat) : World (List (Option Node)) :=
  World.init h (fun o => (R.overlays0 o).onMissing.action) (fun i =>
    fileP R.sed R.dflt (getStyle (getStyleFromConfig R.style)) fuel ((R.file i).nodes.map (fun t => t.hd.addr)) (R.jobsP i))

end Yot
