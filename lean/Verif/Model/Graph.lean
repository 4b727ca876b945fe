import Verif.Model.Heap
/-
Deep copies of overlay values, with the pointers from alias nodes to the nodes they stand
for.  `Model/Heap` leaves these pointers out: nothing but the copying follows them.
-/
namespace Yot

/-- One `yaml.Node` in memory with its field `Alias`: the node that an alias stands for.
(replace.go:13-26, merge.go:203-215) -/
structure GNode where
  hd : Hdr := {}
  alias : Option Nat := none
  content : List Nat := []
deriving DecidableEq, Repr

/-- The memory; addresses from `next` on are not allocated yet. (replace.go:13-26) -/
structure GMem where
  get : Nat → GNode
  next : Nat

/-- A call that may use up the stack (`none`: at this stack size it does) and otherwise
gives a result and the memory. (replace.go:16) -/
def GM (α : Type) : Type := GMem → Option (α × GMem)

namespace GM

instance : Monad GM where
  pure a := fun m => some (a, m)
  bind x f := fun m =>
    match x m with
    | none => none
    | some (a, m') => f a m'

/-- Read `*p`. (replace.go:14) -/
def rd (p : Nat) : GM GNode := fun m => some (m.get p, m)
/-- Write `*p`. (replace.go:16-21) -/
def wr (p : Nat) (c : GNode) : GM Unit := fun m => some ((), { m with get := fun a => if a = p then c else m.get a })
/-- Allocate a node. (replace.go:16) -/
def alloc (c : GNode) : GM Nat := fun m =>
  some (m.next, { get := fun a => if a = m.next then { c with hd := { c.hd with addr := m.next } } else m.get a, next := m.next + 1 })
/-- The stack is used up. (replace.go:16) -/
def overflow {α : Type} : GM α := fun _ => none

end GM
open GM

/-- In order, over the pointers of a slice. (merge.go:204-206) -/
def mapG {α : Type} (f : Nat → GM α) : List Nat → GM (List α)
  | [] => pure []
  | p :: ps => do
    let x ← f p
    let xs ← mapG f ps
    pure (x :: xs)

/-- `reprint` on a pointer to a node: a new node, the nodes that `Alias` and `Content` of
the old one point to being copied in the same way, without a record of what was copied
before. `fuel` is the size of the stack.  From knowledge of the library. (replace.go:16,
merge.go:206) -/
def copyG : Nat → Nat → GM Nat
  | 0, _ => overflow
  | fuel + 1, p => do
    let c ← rd p
    let alias ← mapG (copyG fuel) c.alias.toList
    let kids ← mapG (copyG fuel) c.content
    alloc { c with alias := alias.head?, content := kids }

/-- replace.go:13-26 `ReplaceNode(original, replace)`. -/
def replaceG (E : Sed) (fuel : Nat) (p q : Nat) : GM Unit := do
  let ov ← rd p
  let r ← rd q
  let alias ← mapG (copyG fuel) r.alias.toList
  let kids ← mapG (copyG fuel) r.content
  let c := mergeComments E ov.hd r.hd []
  wr p ⟨{ r.hd with addr := p, head := c.head, line := c.line, foot := c.foot }, alias.head?, kids⟩

/-- format.go:21-38 `sanitizeNode`, on one node; `Alias` is not followed. -/
def sanitizeG (E : Sed) : Nat → Nat → GM Unit
  | 0, _ => overflow
  | fuel + 1, p => do
    let c ← rd p
    let _ ← (if c.hd.kind = .scalar ∨ c.hd.kind = .zero then pure [] else mapG (sanitizeG E fuel) c.content : GM (List Unit))
    let c ← rd p
    wr p { c with hd := sanitizeHdr E c.hd }

/-- merge.go:203-215 `addNode`. -/
def addNodeG (E : Sed) (fuel : Nat) (p : Nat) (nv : List Nat) : GM Unit := do
  let temp ← mapG (copyG fuel) nv
  let _ ← mapG (sanitizeG E fuel) temp
  let c ← rd p
  wr p { c with hd := { c.hd with nilc := c.hd.nilc && temp.isEmpty }, content := c.content ++ temp }

end Yot
