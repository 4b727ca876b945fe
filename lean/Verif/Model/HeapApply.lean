import Verif.Model.Heap
import Verif.Model.File
/-
internal/overlays/{overlay,onmissing,workstream}.go on mutable nodes.
-/
namespace Yot
open HM

/-- A call whose error is dropped, the nil pointer returned with it being used next.
(onmissing.go:58-60) -/
def orCrashH {α : Type} (x : HM α) : HM α := fun h =>
  match x h with
  | (.err _, h') => (.panic, h')
  | r => r

/-- Follow the pointers from `p`: the tree a search in `*p` walks. (query.go:43-47, 84-100) -/
def readH : Nat → Nat → HM Node
  | 0, _ => stop
  | fuel + 1, p => do
    let c ← rd p
    let kids ← mapH (readH fuel) c.content
    pure (.mk c.hd kids)

mutual
/-- Put a tree into new memory: the closures made by `newPath`. (path.go:76-94, 144-159,
173-204, 284-323) -/
def storeH : Node → HM Nat
  | .mk hd cs => do
    let kids ← storesH cs
    alloc ⟨hd, kids⟩
/-- On lists: the loop of `BuildPaths`. (path.go:121-130) -/
def storesH : List Node → HM (List Nat)
  | [] => pure []
  | c :: cs => do
    let p ← storeH c
    let ps ← storesH cs
    pure (p :: ps)
end

/-- path.go:120-138 `BuildPaths`, and merge.go:22-36 `MergeNode(yamlNodes...)` on its
pointers: the nodes of each path are new; the others are merged into the first, which is
returned.  The trees `bps` are what the closures of path.go:76-324 allocate. -/
def buildPathsH (E : Sed) (fuel : Nat) (bps : List Node) : HM Nat := do
  let ps ← storesH bps
  match ps with
  | [] => crash
  | p :: qs => do
    let _ ← mapH (fun q => mergeH E fuel p q []) qs
    pure p

/-- onmissing.go:52-74 `doInjectPath(ip, node)`; after an error of `BuildPaths` the node
`y` is nil. -/
def doInjectPathH (E : Sed) (fuel : Nat) (v : Nat) (ip : List Query) (root : Nat) : HM Unit :=
  match newPaths (ip.map Query.str) with
  | .err e => fail e
  | .panic => crash
  | .ok bps => do
    let y ← orCrashH (buildPathsH E fuel bps)
    mergeH E fuel root y []
    let t ← readH fuel root
    doActionH E fuel .replace root v ((findAll ip t).map (fun m => m.hd.addr))

/-- onmissing.go:76-93 `handleInjectPath`. -/
def handleInjectPathH (E : Sed) (fuel : Nat) (o : Overlay) (v : Nat) (root : Nat) : HM Unit :=
  match newPaths (o.query.map Query.str) with
  | .err .invalidPathSyntax =>
    match o.onMissing.injectPath with
    | none => pure ()
    | some ip => doInjectPathH E fuel v ip root
  | .err e => fail e
  | .panic => crash
  | .ok _ => doInjectPathH E fuel v o.query root

/-- onmissing.go:30-50 `onMissing`. -/
def onMissingH (E : Sed) (dflt : Str) (fuel : Nat) (o : Overlay) (v : Nat) (root : Nat) : HM Unit :=
  match (o.onMissing.resolve dflt).action with
  | .inject => handleInjectPathH E fuel o v root
  | _ => pure ()

/-- overlay.go:26-42 `Apply`: `root` points to the document, `v` to `o.Value` (the
field `o.value` is not used). -/
def applyH (E : Sed) (dflt : Str) (fuel : Nat) (o : Overlay) (v : Nat) (root : Nat) : HM Unit := do
  let t ← readH fuel root
  if !checkQueries o.documentQuery t then pure ()
  else
    let results := findAll o.query t
    if results.isEmpty then onMissingH E dflt fuel o v root
    else doActionH E fuel o.action root v (results.map (fun m => m.hd.addr))

/-- workstream.go:45-51: one workload; the document is named by its index in the list
of documents, and `v` points to the overlay's value. -/
structure JobH where
  index : Nat
  overlay : Overlay
  value : Nat

/-- workstream.go:45-51, one iteration of `StartHandler`. -/
def handleJobH (E : Sed) (dflt : Str) (fuel : Nat) (roots : List Nat) (j : JobH) : HM Unit :=
  match roots[j.index]? with
  | none => pure ()
  | some p => applyH E dflt fuel j.overlay j.value p

/-- workstream.go:44-54 `StartHandler` on a sequence of workloads. -/
def handleJobsH (E : Sed) (dflt : Str) (fuel : Nat) (roots : List Nat) : List JobH → HM Unit
  | [] => pure ()
  | j :: js => do
    handleJobH E dflt fuel roots j
    handleJobsH E dflt fuel roots js

/-- config.go:120-137, `encodeNodes` for one document: it is skipped if empty; else its
style is set, and it is read by the encoder. -/
def encodeOneH (style fuel p : Nat) : HM (Option Node) := do
  let c ← rd p
  if c.content.isEmpty then pure none
  else do
    setStyleH style fuel p
    let t ← readH fuel p
    pure (some t)

/-- execute.go:31-54 and config.go:36-47: one file; the result is what the encoder is
given. -/
def fileH (E : Sed) (dflt : Str) (style : Nat) (fuel : Nat) (roots : List Nat) (js : List JobH) : HM (List (Option Node)) := do
  handleJobsH E dflt fuel roots js
  mapH (encodeOneH style fuel) roots

end Yot
