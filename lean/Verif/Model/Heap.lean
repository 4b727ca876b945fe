import Verif.Model.Output
/-
The edits of internal/actions on mutable nodes: a heap of `yaml.Node` cells that
refer to their children by pointer.  `Model/Actions` and `Model/Overlay` describe the
same functions on trees; the theorems of `Props/Heap` relate the two.

`Content` is kept as the list of its pointers.  This is faithful because no two
nodes ever share a backing array: `reprint` and `[]*yaml.Node{}` make new slices,
and the struct copy `ov` (replace.go:14) never has its `Content` used; C91 proves it
from a model of the slices (`Model/Arrays`).

Go recursion is bounded by `fuel` (`stuck` when it runs out).
-/
namespace Yot

/-- One `yaml.Node` in memory: its fields and the pointers in `Content`.
`hd.addr` is the node's own address. (the `*yaml.Node` of merge.go:22) -/
structure Cell where
  hd : Hdr := {}
  content : List Nat := []
deriving DecidableEq, Repr

/-- The memory: a cell per address; addresses from `next` on are not allocated yet. (merge.go:22-215) -/
structure Heap where
  get : Nat → Cell
  next : Nat

/-- How a call ends. (merge.go:22-36) -/
inductive Flow (α : Type) where
  | ok (a : α)
  | err (e : Err)
  | panic
  | stuck
deriving DecidableEq, Repr

/-- A computation on the heap.  On an error the heap is as the error left it. (merge.go:22-215) -/
def HM (α : Type) : Type := Heap → Flow α × Heap

namespace HM

/-- Sequencing. (merge.go:27-33) -/
def bind {α β : Type} (x : HM α) (f : α → HM β) : HM β := fun h =>
  match x h with
  | (.ok a, h') => f a h'
  | (.err e, h') => (.err e, h')
  | (.panic, h') => (.panic, h')
  | (.stuck, h') => (.stuck, h')

instance : Monad HM where
  pure a := fun h => (.ok a, h)
  bind := bind

/-- Return an error. (merge.go:52-54) -/
def fail {α : Type} (e : Err) : HM α := fun h => (.err e, h)
/-- A run-time panic. (merge.go:22-36) -/
def crash {α : Type} : HM α := fun h => (.panic, h)
/-- Out of fuel. (merge.go:38-55 (recursion)) -/
def stop {α : Type} : HM α := fun h => (.stuck, h)
/-- Read `*p`. (merge.go:38) -/
def rd (p : Nat) : HM Cell := fun h => (.ok (h.get p), h)
/-- Write `*p`. (merge.go:136-166) -/
def wr (p : Nat) (c : Cell) : HM Unit := fun h =>
  (.ok (), { h with get := fun a => if a = p then c else h.get a })
/-- Allocate a node. (merge.go:203-212) -/
def alloc (c : Cell) : HM Nat := fun h =>
  (.ok h.next,
    { get := fun a => if a = h.next then { c with hd := { c.hd with addr := h.next } } else h.get a,
      next := h.next + 1 })

end HM
open HM

/-- Run a function over a list of pointers, in order. (format.go:20-71, merge.go:79-113) -/
def mapH {α : Type} (f : Nat → HM α) : List Nat → HM (List α)
  | [] => pure []
  | p :: ps => do
    let x ← f p
    let xs ← mapH f ps
    pure (x :: xs)

/-- `reprint.FromTo` on one node: a deep copy in new memory (merge.go:206). -/
def copyH : Nat → Nat → HM Nat
  | 0, _ => stop
  | fuel + 1, p => do
    let c ← rd p
    let kids ← mapH (copyH fuel) c.content
    alloc { c with content := kids }

/-- format.go:21-38 `sanitizeNode` on one node: children first for the four kinds
that have them, then the node's own strings. -/
def sanitizeH (E : Sed) : Nat → Nat → HM Unit
  | 0, _ => stop
  | fuel + 1, p => do
    let c ← rd p
    match c.hd.kind with
    | .scalar => pure ()
    | .zero => pure ()
    | _ => do
      let _ ← mapH (sanitizeH E fuel) c.content
      pure ()
    let c ← rd p
    wr p { c with hd := sanitizeHdr E c.hd }

/-- merge.go:203-215 `addNode`. -/
def addNodeH (E : Sed) (fuel : Nat) (p : Nat) (nv : List Nat) : HM Unit := do
  let temp ← mapH (copyH fuel) nv
  let _ ← mapH (sanitizeH E fuel) temp
  let c ← rd p
  wr p ⟨{ c.hd with nilc := c.hd.nilc && temp.isEmpty }, c.content ++ temp⟩

/-- merge.go:168-201 `mergeComments(o, n, values...)`. -/
def mergeCommentsH (E : Sed) (p q : Nat) (vals : List Str) : HM Unit := do
  let o ← rd p
  let n ← rd q
  wr p { o with hd := mergeComments E o.hd n.hd vals }

/-- merge.go:136-166 `mergeScalar(o, n, values...)`. -/
def mergeScalarH (E : Sed) (p q : Nat) (vals : List Str) : HM Unit := do
  let o ← rd p
  let x := formatVals o.hd vals
  mergeCommentsH E p q vals
  let o ← rd p
  let n ← rd q
  if o.hd.kind ≠ .scalar then
    wr p ⟨{ o.hd with kind := .scalar, nilc := true, value := format E n.hd.value x }, []⟩
  else
    wr p { o with hd := { o.hd with value := format E n.hd.value x } }

/-- merge.go:73-78. -/
def toMappingH (p : Nat) : HM Unit := do
  let o ← rd p
  if o.hd.kind ≠ .mapping then
    wr p ⟨{ o.hd with kind := .mapping, tag := c!"!!map", value := [], nilc := false }, []⟩
  else pure ()

/-- merge.go:118-123. -/
def toSequenceH (p : Nat) : HM Unit := do
  let o ← rd p
  if o.hd.kind ≠ .sequence then
    wr p ⟨{ o.hd with kind := .sequence, tag := c!"!!seq", value := [], nilc := false }, []⟩
  else pure ()

/-- merge.go:117-134 `mergeArray`. -/
def mergeArrayH (E : Sed) (fuel : Nat) (p q : Nat) : HM Unit := do
  toSequenceH p
  let n ← rd q
  if n.hd.nilc && n.content.isEmpty then pure ()
  else do
    let o ← rd p
    mergeCommentsH E p q [o.hd.value]
    addNodeH E fuel p n.content

mutual
/-- merge.go:38-55 `merge(o, n, keyName...)`, with 57-67 `mergeDocument`. -/
def mergeH (E : Sed) : Nat → Nat → Nat → List Str → HM Unit
  | 0, _, _, _ => stop
  | fuel + 1, p, q, vals => do
    let n ← rd q
    match n.hd.kind with
    | .document => do
      let o ← rd p
      if (o.hd.nilc && o.content.isEmpty) || (n.hd.nilc && n.content.isEmpty) then pure ()
      else do
        mergeCommentsH E p q [o.hd.value]
        let o ← rd p
        let n ← rd q
        match o.content, n.content with
        | oc :: _, nc :: _ => mergeH E fuel oc nc [o.hd.value]
        | _, _ => crash
    | .mapping => mergeMapH E fuel p q 0
    | .sequence => mergeArrayH E fuel p q
    | .scalar => do
      mergeScalarH E p q vals
      let o ← rd p
      let n ← rd q
      wr p { o with hd := { o.hd with tag := n.hd.tag } }
    | .alias => fail .mergeUnsupportedType
    | .zero => do
      let o ← rd p
      wr p { o with hd := { o.hd with tag := n.hd.tag } }
/-- merge.go:69-115 `mergeMap`, the outer loop from `ni` on. -/
def mergeMapH (E : Sed) : Nat → Nat → Nat → Nat → HM Unit
  | 0, _, _, _ => stop
  | fuel + 1, p, q, ni => do
    let n ← rd q
    match n.content.drop ni with
    | nk :: nv :: _ => do
      toMappingH p
      let found ← mergeScanH E fuel p q ni 0 false
      let _ ← (if found then pure () else addNodeH E fuel p [nk, nv] : HM Unit)
      mergeMapH E fuel p q (ni + 2)
    | _ => pure ()
/-- merge.go:80-105, the inner loop from `oi` on; `found` is `resultFound`. -/
def mergeScanH (E : Sed) : Nat → Nat → Nat → Nat → Nat → Bool → HM Bool
  | 0, _, _, _, _, _ => stop
  | fuel + 1, p, q, ni, oi, found => do
    let o ← rd p
    match o.content.drop oi with
    | ok :: ov :: _ => do
      let n ← rd q
      match n.content.drop ni with
      | nk :: nv :: _ => do
        let ck ← rd nk
        let cok ← rd ok
        if !checkForMarkers ck.hd.value && cok.hd.value ≠ ck.hd.value then
          mergeScanH E fuel p q ni (oi + 2) found
        else do
          let cov ← rd ov
          mergeCommentsH E ok nk [cov.hd.value, cok.hd.value]
          mergeH E fuel ov nv [cok.hd.value]
          if !checkForMarkers ck.hd.value then pure true
          else do
            mergeScalarH E ok nk [cov.hd.value, cok.hd.value]
            mergeScanH E fuel p q ni (oi + 2) true
      | _ => crash
    | _ => pure found
end

/-- replace.go:13-26 `ReplaceNode(original, replace)`: `*original` becomes a deep
copy of `*replace`, with the comments merged into a copy of the old struct. -/
def replaceH (E : Sed) (fuel : Nat) (p q : Nat) : HM Unit := do
  let ov ← rd p
  let r ← rd q
  let kids ← mapH (copyH fuel) r.content
  wr p ⟨{ r.hd with addr := p }, kids⟩
  let o ← rd p
  let c := mergeComments E ov.hd o.hd []
  wr p { o with hd := { o.hd with head := c.head, line := c.line, foot := c.foot } }

/-- combine.go:17-59 `CombineNode(originalValue, newValue)`. -/
def combineH (E : Sed) (p q : Nat) : HM Unit := do
  let o ← rd p
  let n ← rd q
  if o.hd.kind ≠ .scalar ∨ n.hd.kind ≠ .scalar then fail .combineOnlyForScalars
  else do
    mergeCommentsH E p q []
    let o ← rd p
    let n ← rd q
    if o.hd.tag = c!"!!int" then
      match atoi o.hd.value, atoi n.hd.value with
      | some a, some b => wr p { o with hd := { o.hd with value := itoa (wrap64 (a + b)) } }
      | _, _ => fail .notAnInt
    else if o.hd.tag = c!"!!bool" then
      match parseBool o.hd.value, parseBool n.hd.value with
      | some a, some b => wr p { o with hd := { o.hd with value := formatBool (a && b) } }
      | _, _ => fail .notABool
    else wr p { o with hd := { o.hd with value := o.hd.value ++ n.hd.value } }

mutual
/-- delete.go:10-56 `DeleteNode(pn, child)`: the loop ranges over `Content` as it is
when the loop starts. -/
def deleteH : Nat → Nat → Nat → HM Unit
  | 0, _, _ => stop
  | fuel + 1, p, child => do
    let c ← rd p
    deleteLoopH fuel p child 0 c.content
/-- delete.go:11-54, the loop from index `i` on. -/
def deleteLoopH : Nat → Nat → Nat → Nat → List Nat → HM Unit
  | 0, _, _, _, _ => stop
  | _ + 1, _, _, _, [] => pure ()
  | fuel + 1, p, child, i, c :: cs =>
    if c ≠ child then do
      let x ← rd c
      let _ ← (if x.hd.nilc && x.content.isEmpty then pure () else deleteH fuel c child : HM Unit)
      deleteLoopH fuel p child (i + 1) cs
    else do
      let pn ← rd p
      let r := cutRange pn.hd.kind i
      if r.2 ≤ pn.content.length then
        wr p ⟨{ pn.hd with nilc := false }, pn.content.take r.1 ++ pn.content.drop r.2⟩
      else crash
end

/-- yamlfile.go:181-194 `removeCommentsFromNode`. -/
def removeCommentsH : Nat → Nat → HM Unit
  | 0, _ => stop
  | fuel + 1, p => do
    let n ← rd p
    if n.hd.nilc && n.content.isEmpty then pure ()
    else do
      let _ ← mapH (fun c => do
        let x ← rd c
        wr c { x with hd := { x.hd with head := [], line := [], foot := [] } }
        removeCommentsH fuel c) n.content
      pure ()

/-- style.go:73-84 `setStyle` on one node. -/
def setStyleH (s : Nat) : Nat → Nat → HM Unit
  | 0, _ => stop
  | fuel + 1, p => do
    let n ← rd p
    match n.hd.kind with
    | .zero => pure ()
    | .scalar => wr p { n with hd := { n.hd with style := s } }
    | _ => do
      wr p { n with hd := { n.hd with style := s } }
      let _ ← mapH (setStyleH s fuel) n.content
      pure ()

/-- overlay.go:62-77, one iteration of `doAction`: `root` points to the document,
`p` is the match, `v` points to the overlay's value. -/
def doOneH (E : Sed) (fuel : Nat) (action : Action) (root v p : Nat) : HM Unit :=
  match action with
  | .delete => deleteH fuel root p
  | .replace => replaceH E fuel p v
  | .combine => combineH E p v
  | _ => mergeH E fuel p v []

/-- overlay.go:58-81 `doAction`. -/
def doActionH (E : Sed) (fuel : Nat) (action : Action) (root v : Nat) (ps : List Nat) : HM Unit := do
  let _ ← mapH (doOneH E fuel action root v) ps
  pure ()

end Yot
