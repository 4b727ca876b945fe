import Verif.Model.HeapApply
import Verif.Model.Slices
/-
internal/actions, internal/overlays and config.go:120-137 once more, now with `Content`
as it is in Go: a slice, that is a length and a capacity into a backing array.  The
functions are those of `Model/Heap` and `Model/HeapApply`; what changes is how `Content`
is read, appended to, cut in place and made anew.  `Props/Arrays` shows that the two
agree.

Simplified: reading a node reads its whole child list, and finding a nil pointer there
is a crash at once.  Struct copies of overlay values (config.go:178, workstream.go:29)
are the value itself, as in `Model/HeapApply`.
-/
namespace Yot

/-- One `yaml.Node` in memory, its `Content` a slice. (the `*yaml.Node` of merge.go:22) -/
structure ACell where
  hd : Hdr := {}
  content : Slice := ⟨0, 0, 0⟩
deriving DecidableEq, Repr

/-- The memory: nodes, and the arrays of pointers behind their `Content`; a `none` in an
array is a nil pointer. (merge.go:22-215) -/
structure AHeap where
  get : Nat → ACell
  next : Nat
  mem : Mem Nat

/-- What the Go run-time decides: the capacity of an array made by growing a slice, and
of one made for a given number of elements. (merge.go:204-212, delete.go:50-52) -/
structure Runtime where
  grow : Nat → Nat → Nat
  room : Nat → Nat

/-- A computation on this memory. (merge.go:22-215) -/
def AM (α : Type) : Type := AHeap → Flow α × AHeap

namespace AM

/-- Sequencing. (merge.go:27-33) -/
def bind {α β : Type} (x : AM α) (f : α → AM β) : AM β := fun a =>
  match x a with
  | (.ok v, a') => f v a'
  | (.err e, a') => (.err e, a')
  | (.panic, a') => (.panic, a')
  | (.stuck, a') => (.stuck, a')

instance : Monad AM where
  pure v := fun a => (.ok v, a)
  bind := bind

/-- Return an error. (merge.go:52-54) -/
def fail {α : Type} (e : Err) : AM α := fun a => (.err e, a)
/-- A run-time panic. (merge.go:22-36) -/
def crash {α : Type} : AM α := fun a => (.panic, a)
/-- Out of fuel. (merge.go:38-55 (recursion)) -/
def stop {α : Type} : AM α := fun a => (.stuck, a)

/-- Whether no pointer of the slice is nil. (merge.go:84-104) -/
def whole (m : Mem Nat) (s : Slice) : Bool := (List.range s.len).all (fun i => (m.cell s.arr i).isSome)

/-- Read `*p` and the pointers in its `Content`. (merge.go:38, 84-104) -/
def rd (p : Nat) : AM Cell := fun a =>
  let c := a.get p
  if whole a.mem c.content then (.ok ⟨c.hd, a.mem.read c.content⟩, a) else (.panic, a)

/-- Store the node with another header or slice. (merge.go:136-166) -/
def put (a : AHeap) (p : Nat) (c : ACell) : AHeap :=
  { a with get := fun x => if x = p then c else a.get x }

/-- Set fields of `*p` other than `Content`. (merge.go:165, 188-199) -/
def setHd (p : Nat) (hd : Hdr) : AM Unit := fun a => (.ok (), put a p ⟨hd, (a.get p).content⟩)

/-- `p.Content = []*yaml.Node{}` or `nil`: a slice without room, and other fields.
(merge.go:73-78, 118-123, 159-163) -/
def clear (p : Nat) (hd : Hdr) : AM Unit := fun a => (.ok (), put a p ⟨hd, ⟨0, 0, 0⟩⟩)

/-- A new array with the given elements. (merge.go:204-206) -/
def fresh (rt : Runtime) (m : Mem Nat) (xs : List Nat) : Mem Nat × Slice :=
  (({ m with next := m.next + 1 } : Mem Nat).write m.next 0 xs, ⟨m.next, xs.length, rt.room xs.length⟩)

/-- Allocate a node and an array for its children. (merge.go:203-206) -/
def alloc (rt : Runtime) (hd : Hdr) (xs : List Nat) : AM Nat := fun a =>
  let f := fresh rt a.mem xs
  (.ok a.next,
    { get := fun x => if x = a.next then ⟨{ hd with addr := a.next }, f.2⟩ else a.get x,
      next := a.next + 1, mem := f.1 })

/-- `*p` becomes a node with a new array. (replace.go:16) -/
def install (rt : Runtime) (p : Nat) (hd : Hdr) (xs : List Nat) : AM Unit := fun a =>
  let f := fresh rt a.mem xs
  (.ok (), { put a p ⟨hd, f.2⟩ with mem := f.1 })

/-- `p.Content = append(p.Content, xs...)`. (merge.go:212) -/
def extend (rt : Runtime) (p : Nat) (hd : Hdr) (xs : List Nat) : AM Unit := fun a =>
  let r := a.mem.append rt.grow (a.get p).content xs
  (.ok (), { put a p ⟨hd, r.2⟩ with mem := r.1 })

/-- `copy(Content[b:], Content[e:])` on a slice of length `n` in array `r`: the pointers
from `e` on move to `b`, in place. (delete.go:50) -/
def shift (m : Mem Nat) (r b e n : Nat) : Mem Nat :=
  { m with cell := fun x j => if x = r ∧ b ≤ j ∧ j < b + (n - e) then m.cell r (j + (e - b)) else m.cell x j }

/-- `Content[i] = nil`. (delete.go:51) -/
def clearAt (m : Mem Nat) (r i : Nat) : Mem Nat :=
  { m with cell := fun x j => if x = r ∧ j = i then none else m.cell x j }

/-- delete.go:24-52: cut the child at index `i` (and its key or value) out of `p.Content`,
in place. -/
def cut (p i : Nat) : AM Unit := fun a =>
  let c := a.get p
  let s := c.content
  let r := cutRange c.hd.kind i
  if r.2 ≤ s.len then
    let n := s.len - (r.2 - r.1)
    (.ok (), { put a p ⟨{ c.hd with nilc := false }, { s with len := n }⟩ with
      mem := clearAt (shift a.mem s.arr r.1 r.2 s.len) s.arr n })
  else (.panic, a)

/-- The slice `p.Content`, as a `range` loop takes it when it starts. (delete.go:11) -/
def slice (p : Nat) : AM Slice := fun a => (.ok (a.get p).content, a)

/-- Element `i` of a slice, as its array has it now. (delete.go:11) -/
def elem (s : Slice) (i : Nat) : AM (Option Nat) := fun a => (.ok (a.mem.cell s.arr i), a)

end AM
open AM

/-- Run a function over a list of pointers, in order. (format.go:20-71, merge.go:79-113) -/
def mapA {α : Type} (f : Nat → AM α) : List Nat → AM (List α)
  | [] => pure []
  | p :: ps => do
    let x ← f p
    let xs ← mapA f ps
    pure (x :: xs)

/-- `reprint.FromTo` on one node: a deep copy in new memory (merge.go:206). -/
def copyA (rt : Runtime) : Nat → Nat → AM Nat
  | 0, _ => AM.stop
  | fuel + 1, p => do
    let c ← AM.rd p
    let kids ← mapA (copyA rt fuel) c.content
    AM.alloc rt c.hd kids

/-- format.go:21-38 `sanitizeNode` on one node. -/
def sanitizeA (E : Sed) : Nat → Nat → AM Unit
  | 0, _ => AM.stop
  | fuel + 1, p => do
    let c ← AM.rd p
    match c.hd.kind with
    | .scalar => pure ()
    | .zero => pure ()
    | _ => do
      let _ ← mapA (sanitizeA E fuel) c.content
      pure ()
    let c ← AM.rd p
    AM.setHd p (sanitizeHdr E c.hd)

/-- merge.go:203-215 `addNode`. -/
def addNodeA (rt : Runtime) (E : Sed) (fuel : Nat) (p : Nat) (nv : List Nat) : AM Unit := do
  let temp ← mapA (copyA rt fuel) nv
  let _ ← mapA (sanitizeA E fuel) temp
  let c ← AM.rd p
  AM.extend rt p { c.hd with nilc := c.hd.nilc && temp.isEmpty } temp

/-- merge.go:168-201 `mergeComments(o, n, values...)`. -/
def mergeCommentsA (E : Sed) (p q : Nat) (vals : List Str) : AM Unit := do
  let o ← AM.rd p
  let n ← AM.rd q
  AM.setHd p (mergeComments E o.hd n.hd vals)

/-- merge.go:136-166 `mergeScalar(o, n, values...)`. -/
def mergeScalarA (E : Sed) (p q : Nat) (vals : List Str) : AM Unit := do
  let o ← AM.rd p
  let x := formatVals o.hd vals
  mergeCommentsA E p q vals
  let o ← AM.rd p
  let n ← AM.rd q
  if o.hd.kind ≠ .scalar then
    AM.clear p { o.hd with kind := .scalar, nilc := true, value := format E n.hd.value x }
  else
    AM.setHd p { o.hd with value := format E n.hd.value x }

/-- merge.go:73-78. -/
def toMappingA (p : Nat) : AM Unit := do
  let o ← AM.rd p
  if o.hd.kind ≠ .mapping then
    AM.clear p { o.hd with kind := .mapping, tag := c!"!!map", value := [], nilc := false }
  else pure ()

/-- merge.go:118-123. -/
def toSequenceA (p : Nat) : AM Unit := do
  let o ← AM.rd p
  if o.hd.kind ≠ .sequence then
    AM.clear p { o.hd with kind := .sequence, tag := c!"!!seq", value := [], nilc := false }
  else pure ()

/-- merge.go:117-134 `mergeArray`. -/
def mergeArrayA (rt : Runtime) (E : Sed) (fuel : Nat) (p q : Nat) : AM Unit := do
  toSequenceA p
  let n ← AM.rd q
  if n.hd.nilc && n.content.isEmpty then pure ()
  else do
    let o ← AM.rd p
    mergeCommentsA E p q [o.hd.value]
    addNodeA rt E fuel p n.content

mutual
/-- merge.go:38-55 `merge(o, n, keyName...)`, with 57-67 `mergeDocument`. -/
def mergeA (rt : Runtime) (E : Sed) : Nat → Nat → Nat → List Str → AM Unit
  | 0, _, _, _ => AM.stop
  | fuel + 1, p, q, vals => do
    let n ← AM.rd q
    match n.hd.kind with
    | .document => do
      let o ← AM.rd p
      if (o.hd.nilc && o.content.isEmpty) || (n.hd.nilc && n.content.isEmpty) then pure ()
      else do
        mergeCommentsA E p q [o.hd.value]
        let o ← AM.rd p
        let n ← AM.rd q
        match o.content, n.content with
        | oc :: _, nc :: _ => mergeA rt E fuel oc nc [o.hd.value]
        | _, _ => AM.crash
    | .mapping => mergeMapA rt E fuel p q 0
    | .sequence => mergeArrayA rt E fuel p q
    | .scalar => do
      mergeScalarA E p q vals
      let o ← AM.rd p
      let n ← AM.rd q
      AM.setHd p { o.hd with tag := n.hd.tag }
    | .alias => AM.fail .mergeUnsupportedType
    | .zero => do
      let o ← AM.rd p
      AM.setHd p { o.hd with tag := n.hd.tag }
/-- merge.go:69-115 `mergeMap`, the outer loop from `ni` on. -/
def mergeMapA (rt : Runtime) (E : Sed) : Nat → Nat → Nat → Nat → AM Unit
  | 0, _, _, _ => AM.stop
  | fuel + 1, p, q, ni => do
    let n ← AM.rd q
    match n.content.drop ni with
    | nk :: nv :: _ => do
      toMappingA p
      let found ← mergeScanA rt E fuel p q ni 0 false
      let _ ← (if found then pure () else addNodeA rt E fuel p [nk, nv] : AM Unit)
      mergeMapA rt E fuel p q (ni + 2)
    | _ => pure ()
/-- merge.go:80-105, the inner loop from `oi` on; `found` is `resultFound`. -/
def mergeScanA (rt : Runtime) (E : Sed) : Nat → Nat → Nat → Nat → Nat → Bool → AM Bool
  | 0, _, _, _, _, _ => AM.stop
  | fuel + 1, p, q, ni, oi, found => do
    let o ← AM.rd p
    match o.content.drop oi with
    | ok :: ov :: _ => do
      let n ← AM.rd q
      match n.content.drop ni with
      | nk :: nv :: _ => do
        let ck ← AM.rd nk
        let cok ← AM.rd ok
        if !checkForMarkers ck.hd.value && cok.hd.value ≠ ck.hd.value then
          mergeScanA rt E fuel p q ni (oi + 2) found
        else do
          let cov ← AM.rd ov
          mergeCommentsA E ok nk [cov.hd.value, cok.hd.value]
          mergeA rt E fuel ov nv [cok.hd.value]
          if !checkForMarkers ck.hd.value then pure true
          else do
            mergeScalarA E ok nk [cov.hd.value, cok.hd.value]
            mergeScanA rt E fuel p q ni (oi + 2) true
      | _ => AM.crash
    | _ => pure found
end

/-- replace.go:13-26 `ReplaceNode(original, replace)`. -/
def replaceA (rt : Runtime) (E : Sed) (fuel : Nat) (p q : Nat) : AM Unit := do
  let ov ← AM.rd p
  let r ← AM.rd q
  let kids ← mapA (copyA rt fuel) r.content
  AM.install rt p { r.hd with addr := p } kids
  let o ← AM.rd p
  let c := mergeComments E ov.hd o.hd []
  AM.setHd p { o.hd with head := c.head, line := c.line, foot := c.foot }

/-- combine.go:17-59 `CombineNode(originalValue, newValue)`. -/
def combineA (E : Sed) (p q : Nat) : AM Unit := do
  let o ← AM.rd p
  let n ← AM.rd q
  if o.hd.kind ≠ .scalar ∨ n.hd.kind ≠ .scalar then AM.fail .combineOnlyForScalars
  else do
    mergeCommentsA E p q []
    let o ← AM.rd p
    let n ← AM.rd q
    if o.hd.tag = c!"!!int" then
      match atoi o.hd.value, atoi n.hd.value with
      | some a, some b => AM.setHd p { o.hd with value := itoa (wrap64 (a + b)) }
      | _, _ => AM.fail .notAnInt
    else if o.hd.tag = c!"!!bool" then
      match parseBool o.hd.value, parseBool n.hd.value with
      | some a, some b => AM.setHd p { o.hd with value := formatBool (a && b) }
      | _, _ => AM.fail .notABool
    else AM.setHd p { o.hd with value := o.hd.value ++ n.hd.value }

mutual
/-- delete.go:10-56 `DeleteNode(pn, child)`: the loop has the slice as it was when the
loop started, but reads its elements as it comes to them. -/
def deleteA : Nat → Nat → Nat → AM Unit
  | 0, _, _ => AM.stop
  | fuel + 1, p, child => do
    let s ← AM.slice p
    deleteLoopA fuel p child 0 s
/-- delete.go:11-54, the loop from index `i` on; `c.Content` of a nil `c` panics. -/
def deleteLoopA : Nat → Nat → Nat → Nat → Slice → AM Unit
  | 0, _, _, _, _ => AM.stop
  | fuel + 1, p, child, i, s =>
    if s.len ≤ i then pure ()
    else do
      let e ← AM.elem s i
      match e with
      | none => AM.crash
      | some c =>
        if c ≠ child then do
          let x ← AM.rd c
          let _ ← (if x.hd.nilc && x.content.isEmpty then pure () else deleteA fuel c child : AM Unit)
          deleteLoopA fuel p child (i + 1) s
        else AM.cut p i
end

/-- yamlfile.go:181-194 `removeCommentsFromNode`. -/
def removeCommentsA : Nat → Nat → AM Unit
  | 0, _ => AM.stop
  | fuel + 1, p => do
    let n ← AM.rd p
    if n.hd.nilc && n.content.isEmpty then pure ()
    else do
      let _ ← mapA (fun c => do
        let x ← AM.rd c
        AM.setHd c { x.hd with head := [], line := [], foot := [] }
        removeCommentsA fuel c) n.content
      pure ()

/-- style.go:73-84 `setStyle` on one node. -/
def setStyleA (s : Nat) : Nat → Nat → AM Unit
  | 0, _ => AM.stop
  | fuel + 1, p => do
    let n ← AM.rd p
    match n.hd.kind with
    | .zero => pure ()
    | .scalar => AM.setHd p { n.hd with style := s }
    | _ => do
      AM.setHd p { n.hd with style := s }
      let _ ← mapA (setStyleA s fuel) n.content
      pure ()

/-- overlay.go:62-77, one iteration of `doAction`. -/
def doOneA (rt : Runtime) (E : Sed) (fuel : Nat) (action : Action) (root v p : Nat) : AM Unit :=
  match action with
  | .delete => deleteA fuel root p
  | .replace => replaceA rt E fuel p v
  | .combine => combineA E p v
  | _ => mergeA rt E fuel p v []

/-- overlay.go:58-81 `doAction`. -/
def doActionA (rt : Runtime) (E : Sed) (fuel : Nat) (action : Action) (root v : Nat) (ps : List Nat) : AM Unit := do
  let _ ← mapA (doOneA rt E fuel action root v) ps
  pure ()

/-- A call whose error is dropped, the nil pointer returned with it being used next.
(onmissing.go:58-60) -/
def orCrashA {α : Type} (x : AM α) : AM α := fun a =>
  match x a with
  | (.err _, a') => (.panic, a')
  | r => r

/-- Follow the pointers from `p`: the tree a search in `*p` walks. (query.go:43-47, 84-100) -/
def readA : Nat → Nat → AM Node
  | 0, _ => AM.stop
  | fuel + 1, p => do
    let c ← AM.rd p
    let kids ← mapA (readA fuel) c.content
    pure (.mk c.hd kids)

mutual
/-- Put a tree into new memory: the closures made by `newPath`; a list built by the
`append` of path.go:319 is an array of some capacity. (path.go:76-94, 144-159, 173-204,
284-323) -/
def storeA (rt : Runtime) : Node → AM Nat
  | .mk hd cs => do
    let kids ← storesA rt cs
    AM.alloc rt hd kids
/-- On lists: the loop of `BuildPaths`. (path.go:121-130) -/
def storesA (rt : Runtime) : List Node → AM (List Nat)
  | [] => pure []
  | c :: cs => do
    let p ← storeA rt c
    let ps ← storesA rt cs
    pure (p :: ps)
end

/-- path.go:120-138 `BuildPaths`, and merge.go:22-36 `MergeNode(yamlNodes...)`. -/
def buildPathsA (rt : Runtime) (E : Sed) (fuel : Nat) (bps : List Node) : AM Nat := do
  let ps ← storesA rt bps
  match ps with
  | [] => AM.crash
  | p :: qs => do
    let _ ← mapA (fun q => mergeA rt E fuel p q []) qs
    pure p

/-- onmissing.go:52-74 `doInjectPath(ip, node)`. -/
def doInjectPathA (rt : Runtime) (E : Sed) (fuel : Nat) (v : Nat) (ip : List Query) (root : Nat) : AM Unit :=
  match newPaths (ip.map Query.str) with
  | .err e => AM.fail e
  | .panic => AM.crash
  | .ok bps => do
    let y ← orCrashA (buildPathsA rt E fuel bps)
    mergeA rt E fuel root y []
    let t ← readA fuel root
    doActionA rt E fuel .replace root v ((findAll ip t).map (fun m => m.hd.addr))

/-- onmissing.go:76-93 `handleInjectPath`. -/
def handleInjectPathA (rt : Runtime) (E : Sed) (fuel : Nat) (o : Overlay) (v : Nat) (root : Nat) : AM Unit :=
  match newPaths (o.query.map Query.str) with
  | .err .invalidPathSyntax =>
    match o.onMissing.injectPath with
    | none => pure ()
    | some ip => doInjectPathA rt E fuel v ip root
  | .err e => AM.fail e
  | .panic => AM.crash
  | .ok _ => doInjectPathA rt E fuel v o.query root

/-- onmissing.go:30-50 `onMissing`. -/
def onMissingA (rt : Runtime) (E : Sed) (dflt : Str) (fuel : Nat) (o : Overlay) (v : Nat) (root : Nat) : AM Unit :=
  match (o.onMissing.resolve dflt).action with
  | .inject => handleInjectPathA rt E fuel o v root
  | _ => pure ()

/-- overlay.go:26-42 `Apply`. -/
def applyA (rt : Runtime) (E : Sed) (dflt : Str) (fuel : Nat) (o : Overlay) (v : Nat) (root : Nat) : AM Unit := do
  let t ← readA fuel root
  if !checkQueries o.documentQuery t then pure ()
  else
    let results := findAll o.query t
    if results.isEmpty then onMissingA rt E dflt fuel o v root
    else doActionA rt E fuel o.action root v (results.map (fun m => m.hd.addr))

/-- workstream.go:45-51, one iteration of `StartHandler`. -/
def handleJobA (rt : Runtime) (E : Sed) (dflt : Str) (fuel : Nat) (roots : List Nat) (j : JobH) : AM Unit :=
  match roots[j.index]? with
  | none => pure ()
  | some p => applyA rt E dflt fuel j.overlay j.value p

/-- workstream.go:44-54 `StartHandler` on a sequence of workloads. -/
def handleJobsA (rt : Runtime) (E : Sed) (dflt : Str) (fuel : Nat) (roots : List Nat) : List JobH → AM Unit
  | [] => pure ()
  | j :: js => do
    handleJobA rt E dflt fuel roots j
    handleJobsA rt E dflt fuel roots js

/-- config.go:120-137, `encodeNodes` for one document. -/
def encodeOneA (style fuel p : Nat) : AM (Option Node) := do
  let c ← AM.rd p
  if c.content.isEmpty then pure none
  else do
    setStyleA style fuel p
    let t ← readA fuel p
    pure (some t)

/-- execute.go:31-54 and config.go:36-47: one file; the result is what the encoder is
given. -/
def fileA (rt : Runtime) (E : Sed) (dflt : Str) (style : Nat) (fuel : Nat) (roots : List Nat) (js : List JobH) : AM (List (Option Node)) := do
  handleJobsA rt E dflt fuel roots js
  mapA (encodeOneA style fuel) roots

end Yot
