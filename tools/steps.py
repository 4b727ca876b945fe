#!/usr/bin/env python3
"""Writes lean/Verif/Model/Steps.lean: the functions of Model/Heap and Model/HeapApply
with every memory access as a step of its own (`Prog` instead of `HM`).  The texts of the
functions are the same; `Lemmas/Steps` proves that each does what its original does."""
import os, re
root = os.path.join(os.path.dirname(os.path.dirname(os.path.abspath(__file__))), "lean", "Verif", "Model")
heap = open(os.path.join(root, "Heap.lean")).read()
happ = open(os.path.join(root, "HeapApply.lean")).read()

def between(s, a, b):
    i = s.index(a); j = s.index(b, i)
    return s[i:j]

body = between(heap, "/-- Run a function over a list of pointers", "/-- yamlfile.go:181-194 `removeCommentsFromNode`")
body += between(heap, "/-- style.go:73-84 `setStyle`", "end Yot")
body += between(happ, "/-- Follow the pointers from", "/-- onmissing.go:30-50 `onMissing`")

def conv(s):
    s = re.sub(r"\bHM\b", "Prog", s)
    s = re.sub(r"\b(\w+)H\b", r"\1P", s)
    s = re.sub(r"(?<![\w`.])(rd|wr|alloc|fail|crash|stop)\b(?!`)", r"\1P", s)
    return s

head = '''import Verif.Model.HeapApply
import Verif.Model.Execute
/-
Generated by tools/steps.py from Model/Heap and Model/HeapApply: the same functions, every
single access to memory being a step of its own, so that the goroutines of a run can be
interleaved between any two accesses.
-/
namespace Yot

/-- A goroutine's remaining work: it has ended, or its next access to memory (a node, or
the field `OnMissing.Action` of an overlay) and how it goes on.  A whole struct is read or
written at once. (merge.go:22-215, onmissing.go:30-50) -/
inductive Prog (α : Type) : Type where
  | ret (a : α)
  | fail (e : Err)
  | crash
  | stop
  | rd (p : Nat) (k : Cell → Prog α)
  | wr (p : Nat) (c : Cell) (k : Prog α)
  | alloc (c : Cell) (k : Nat → Prog α)
  | rdAct (o : Nat) (k : OnMissingAction → Prog α)
  | wrAct (o : Nat) (a : OnMissingAction) (k : Prog α)

namespace Prog

/-- Sequencing. (merge.go:27-33) -/
def bind {α β : Type} : Prog α → (α → Prog β) → Prog β
  | .ret a, f => f a
  | .fail e, _ => .fail e
  | .crash, _ => .crash
  | .stop, _ => .stop
  | .rd p k, f => .rd p (fun c => (k c).bind f)
  | .wr p c k, f => .wr p c (k.bind f)
  | .alloc c k, f => .alloc c (fun p => (k p).bind f)
  | .rdAct o k, f => .rdAct o (fun a => (k a).bind f)
  | .wrAct o a k, f => .wrAct o a (k.bind f)

instance : Monad Prog where
  pure := .ret
  bind := bind

end Prog

/-- Read `*p`. (merge.go:38) -/
def rdP (p : Nat) : Prog Cell := .rd p .ret
/-- Write `*p`. (merge.go:136-166) -/
def wrP (p : Nat) (c : Cell) : Prog Unit := .wr p c (.ret ())
/-- Allocate a node. (merge.go:203-212) -/
def allocP (c : Cell) : Prog Nat := .alloc c .ret
/-- Return an error. (merge.go:52-54) -/
def failP {α : Type} (e : Err) : Prog α := .fail e
/-- A run-time panic. (merge.go:22-36) -/
def crashP {α : Type} : Prog α := .crash
/-- Out of fuel. (merge.go:38-55 (recursion)) -/
def stopP {α : Type} : Prog α := .stop
/-- A call whose error is dropped, the nil pointer returned with it being used next.
(onmissing.go:58-60) -/
def orCrashP {α : Type} : Prog α → Prog α
  | .ret a => .ret a
  | .fail _ => .crash
  | .crash => .crash
  | .stop => .stop
  | .rd p k => .rd p (fun c => orCrashP (k c))
  | .wr p c k => .wr p c (orCrashP k)
  | .alloc c k => .alloc c (fun p => orCrashP (k p))
  | .rdAct o k => .rdAct o (fun a => orCrashP (k a))
  | .wrAct o a k => .wrAct o a (orCrashP k)
/-- Read `o.OnMissing.Action`. (onmissing.go:31, 42) -/
def rdActP (o : Nat) : Prog OnMissingAction := .rdAct o .ret
/-- Write `o.OnMissing.Action`. (onmissing.go:33) -/
def wrActP (o : Nat) (a : OnMissingAction) : Prog Unit := .wrAct o a (.ret ())

'''
tail = '''/-- onmissing.go:30-50 `onMissing`; `ptr` points to the overlay `o`, of which the field
`OnMissing.Action` is in memory shared with the other goroutines. -/
def onMissingP (E : Sed) (dflt : Str) (fuel : Nat) (ptr : Nat) (o : Overlay) (v : Nat) (root : Nat) : Prog Unit := do
  let a ← rdActP ptr
  let _ ← (if a = .default ∧ isInjectWord dflt then wrActP ptr .inject else pure () : Prog Unit)
  let a ← rdActP ptr
  match a with
  | .inject => handleInjectPathP E fuel o v root
  | _ => pure ()

/-- overlay.go:26-42 `Apply`. -/
def applyP (E : Sed) (dflt : Str) (fuel : Nat) (ptr : Nat) (o : Overlay) (v : Nat) (root : Nat) : Prog Unit := do
  let t ← readP fuel root
  if !checkQueries o.documentQuery t then pure ()
  else
    let results := findAll o.query t
    if results.isEmpty then onMissingP E dflt fuel ptr o v root
    else doActionP E fuel o.action root v (results.map (fun m => m.hd.addr))

/-- workstream.go:12-17 `workload`: the pointers to the overlay and to its value, the
overlay's other fields, and the index of the document. -/
structure JobP where
  index : Nat
  ptr : Nat
  overlay : Overlay
  value : Nat

/-- workstream.go:44-54 `StartHandler` on a sequence of workloads. -/
def handleJobsP (E : Sed) (dflt : Str) (fuel : Nat) (roots : List Nat) : List JobP → Prog Unit
  | [] => pure ()
  | j :: js => do
    let _ ← (match roots[j.index]? with
      | none => pure ()
      | some p => applyP E dflt fuel j.ptr j.overlay j.value p : Prog Unit)
    handleJobsP E dflt fuel roots js

/-- config.go:120-137, the memory accesses of `encodeNodes` for one document: it is
skipped if empty; else its style is set, and it is read by the encoder. -/
def encodeOneP (style fuel p : Nat) : Prog (Option Node) := do
  let c ← rdP p
  if c.content.isEmpty then pure none
  else do
    setStyleP style fuel p
    let t ← readP fuel p
    pure (some t)

/-- execute.go:31-54 and config.go:36-47: all memory accesses for one file, by its worker
and then, after the file was passed on through the channel, by the main goroutine; the
result is what the encoder is given. -/
def fileP (E : Sed) (dflt : Str) (style : Nat) (fuel : Nat) (roots : List Nat) (js : List JobP) : Prog (List (Option Node)) := do
  handleJobsP E dflt fuel roots js
  mapP (encodeOneP style fuel) roots

/-- A pointer: to a node that was there before the workers were started, or to the one that
goroutine `t` calls `a`.  Simplification: a goroutine names the nodes that it allocates by
its own numbers, from `base` on (new nodes get new addresses, whoever allocates them).
(execute.go:31-54) -/
inductive Ptr where
  | old (a : Nat)
  | new (t a : Nat)
deriving DecidableEq, Repr

/-- A node in the shared memory: its fields, its own address, its children.
(execute.go:31-54) -/
structure GCell where
  hd : Hdr := {}
  self : Ptr
  content : List Ptr := []
deriving DecidableEq, Repr

/-- The pointer that goroutine `t` calls `a`. (execute.go:31-54) -/
def toPtr (base t a : Nat) : Ptr := if a < base then .old a else .new t a

/-- What goroutine `t` calls this pointer, unless it points to memory of another one.
(execute.go:31-54) -/
def fromPtr (t : Nat) : Ptr → Option Nat
  | .old a => some a
  | .new s a => if s = t then some a else none

/-- A node as goroutine `t` stores it. (execute.go:31-54) -/
def toShared (base t : Nat) (c : Cell) : GCell :=
  ⟨{ c.hd with addr := 0 }, toPtr base t c.hd.addr, c.content.map (toPtr base t)⟩

/-- A node as goroutine `t` sees it, unless it refers to memory of another one.
(execute.go:31-54) -/
def fromShared (t : Nat) (g : GCell) : Option Cell :=
  match fromPtr t g.self, g.content.mapM (fromPtr t) with
  | some a, some ps => some ⟨{ g.hd with addr := a }, ps⟩
  | _, _ => none

/-- The state of all goroutines: the shared memory (nodes and actions of overlays), and for
each goroutine its next name for a new node and its remaining work.  `mixed`: some
goroutine has come upon a node that refers to memory allocated by another one.
(execute.go:31-54) -/
structure World (α : Type) where
  node : Ptr → GCell
  act : Nat → OnMissingAction
  next : Nat → Nat
  prog : Nat → Prog α
  mixed : Bool := false

/-- Write to the shared memory. (execute.go:31-54) -/
def World.put {α : Type} (s : World α) (p : Ptr) (g : GCell) : World α :=
  { s with node := fun q => if q = p then g else s.node q }

/-- Let goroutine `t` go on with `k`. (execute.go:31-54) -/
def World.goOn {α : Type} (s : World α) (t : Nat) (k : Prog α) : World α := { s with prog := upd s.prog t k }

/-- One access to memory by goroutine `t`, at any time. (execute.go:31-54) -/
inductive Access {α : Type} (base : Nat) (t : Nat) (s : World α) : World α → Prop
  | rd {p k c} : s.prog t = .rd p k → fromShared t (s.node (toPtr base t p)) = some c → Access base t s (s.goOn t (k c))
  | mixed {p k} : s.prog t = .rd p k → fromShared t (s.node (toPtr base t p)) = none → Access base t s { s with mixed := true }
  | wr {p c k} : s.prog t = .wr p c k → Access base t s ((s.put (toPtr base t p) (toShared base t c)).goOn t k)
  | alloc {c k} : s.prog t = .alloc c k → Access base t s
      ({ s.put (.new t (s.next t)) (toShared base t { c with hd := { c.hd with addr := s.next t } }) with
          next := upd s.next t (s.next t + 1) }.goOn t (k (s.next t)))
  | rdAct {o k} : s.prog t = .rdAct o k → Access base t s (s.goOn t (k (s.act o)))
  | wrAct {o a k} : s.prog t = .wrAct o a k → Access base t s ({ s with act := upd s.act o a }.goOn t k)

/-- The states that some interleaving of the goroutines leads to. (execute.go:31-54) -/
inductive Interleaved {α : Type} (base : Nat) (s0 : World α) : World α → Prop
  | start : Interleaved base s0 s0
  | step {s s' t} : Interleaved base s0 s → Access base t s s' → Interleaved base s0 s'

/-- The start: memory as the files were read, the workers' programs. (execute.go:18-31) -/
def World.init {α : Type} (h : Heap) (act : Nat → OnMissingAction) (prog : Nat → Prog α) : World α where
  node := fun p => match p with
    | .old a => toShared h.next 0 (h.get a)
    | .new t a => { self := .new t a }
  act := act
  next := fun _ => h.next
  prog := prog

/-- The workloads of file `i`, with the pointers. (workstream.go:12-31) -/
def Run.jobsP (R : Run) (i : Nat) : List JobP :=
  (R.work i).map (fun w => ⟨w.1, w.2, R.overlays0 w.2, (R.overlays0 w.2).value.hd.addr⟩)

/-- The goroutines of a run when they are started: goroutine `i` works on file `i`, whose
documents and the overlays' values lie in the memory `h`. (execute.go:18-54) -/
def Run.world (R : Run) (h : Heap) (fuel : Nat) : World (List (Option Node)) :=
  World.init h (fun o => (R.overlays0 o).onMissing.action) (fun i =>
    fileP R.sed R.dflt (getStyle (getStyleFromConfig R.style)) fuel ((R.file i).nodes.map (fun t => t.hd.addr)) (R.jobsP i))

end Yot
'''
open(os.path.join(root, "Steps.lean"), "w").write(head + conv(body) + tail)
