import Verif.Model.Graph
/-
The comparison of a match with the value of a condition, with the pointers from alias nodes to
the nodes they stand for.
-/
namespace Yot

/-- What go-cmp keeps track of while it follows pointers: which of the pointers to nodes (`false`)
and slices `Content` (`true`, named by the node whose they are) it is inside of, on both sides.
From knowledge of the library. (documentquery.go:58) -/
abbrev CmpPath := List ((Nat × Bool) × (Nat × Bool))

/-- One of the two was met before on the way here. (documentquery.go:58) -/
def CmpPath.seen (path : CmpPath) (x y : Nat × Bool) : Bool := path.any (fun e => e.1 = x || e.2 = y)

/-- The elements of two slices, pairwise. (documentquery.go:58) -/
def cmpAllG (f : Nat → Nat → Option Bool) : List Nat → List Nat → Option Bool
  | [], [] => some true
  | x :: xs, y :: ys => do
    let a ← f x y
    let b ← cmpAllG f xs ys
    pure (a && b)
  | _, _ => some false

/-- A pointer: one that was met before is the same if both were met as a pair.
(documentquery.go:58) -/
def cmpPtrG (at_ : CmpPath → Nat → Nat → Option Bool) (path : CmpPath) (x y : Nat) : Option Bool :=
  if path.seen (x, false) (y, false) then some (path.contains ((x, false), (y, false)))
  else at_ (((x, false), (y, false)) :: path) x y

/-- The fields that are compared, apart from `Alias` and `Content`; comments, position and style are
ignored. (documentquery.go:44) -/
def sameFields (h k : Hdr) : Bool := h.kind = k.kind && h.tag = k.tag && h.value = k.value && h.anchor = k.anchor

/-- The pointers `Alias` of two nodes. (documentquery.go:58) -/
def cmpAliasG (at_ : CmpPath → Nat → Nat → Option Bool) (path : CmpPath) : Option Nat → Option Nat → Option Bool
  | none, none => some true
  | some x, some y => cmpPtrG at_ path x y
  | _, _ => some false

/-- The slices `Content` of the nodes `c` at `p` and `d` at `q`. Nil slices are compared before they
are looked at; when lengths differ the library may compare some of the elements, to no effect.
(documentquery.go:58) -/
def cmpContentG (at_ : CmpPath → Nat → Nat → Option Bool) (path : CmpPath) (p q : Nat) (c d : GNode) : Option Bool :=
  if c.hd.nilc && c.content.isEmpty || d.hd.nilc && d.content.isEmpty then
    some (decide ((c.hd.nilc && c.content.isEmpty) = (d.hd.nilc && d.content.isEmpty)))
  else if path.seen (p, true) (q, true) then some (path.contains ((p, true), (q, true)))
  else cmpAllG (cmpPtrG at_ (((p, true), (q, true)) :: path)) c.content d.content

/-- `cmp.Equal` on the nodes at `p` and `q`, given the stack so far. `fuel` is how deep the stack
may still grow (`none`: it runs out). (documentquery.go:44, 58) -/
def cmpAtG (m : GMem) : Nat → CmpPath → Nat → Nat → Option Bool
  | 0, _, _, _ => none
  | fuel + 1, path, p, q => do
    let a ← cmpAliasG (cmpAtG m fuel) path (m.get p).alias (m.get q).alias
    let b ← cmpContentG (cmpAtG m fuel) path p q (m.get p) (m.get q)
    pure (sameFields (m.get p).hd (m.get q).hd && a && b)

/-- `cmp.Equal(*result, c.Value, compareOptions)`: both nodes are passed by value.
(documentquery.go:58) -/
def compareG (m : GMem) (fuel p q : Nat) : Option Bool := cmpAtG m fuel [] p q

end Yot
