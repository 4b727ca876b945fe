import Verif.Model.Steps
import Verif.Spec.Tree
import Verif.Spec.Heap
/-
Data races, and what the encoder should be given.
-/
namespace Yot.Spec

/-- What a goroutine is about to do to memory. -/
inductive Touch where
  | readNode (p : Ptr)
  | writeNode (p : Ptr)
  | readAction (o : Nat)
  | writeAction (o : Nat)
deriving DecidableEq

/-- The next access to memory by goroutine `t`; none if it has ended. -/
def nextTouch {α : Type} (base : Nat) (s : World α) (t : Nat) : Option Touch :=
  match s.prog t with
  | .rd p _ => some (.readNode (toPtr base t p))
  | .wr p _ _ => some (.writeNode (toPtr base t p))
  | .alloc _ _ => some (.writeNode (.new t (s.next t)))
  | .rdAct o _ => some (.readAction o)
  | .wrAct o _ _ => some (.writeAction o)
  | _ => none

/-- Two goroutines are about to access the same node, at least one writing to it. -/
def NodeRace {α : Type} (base : Nat) (s : World α) : Prop :=
  ∃ t u p, t ≠ u ∧ nextTouch base s t = some (.writeNode p) ∧
    (nextTouch base s u = some (.readNode p) ∨ nextTouch base s u = some (.writeNode p))

/-- The same for the action of an overlay. -/
def ActionRace {α : Type} (base : Nat) (s : World α) : Prop :=
  ∃ t u o, t ≠ u ∧ nextTouch base s t = some (.writeAction o) ∧
    (nextTouch base s u = some (.readAction o) ∨ nextTouch base s u = some (.writeAction o))

/-- What the encoder should be given for the document: nothing if it is empty, else the
document in the given style. -/
def handed (style : Nat) (d : Node) : Option Node :=
  if d.content.isEmpty then none else some (copyOf (setStyle style d))

/-- The text of a file of which the encoder is given these documents: the first document
that is not empty is the encoder's first, and the file begins with a separator unless its
first document is empty. -/
def textOf (emit : Bool → Node → Res Err Str) : Nat → Bool → List (Option Node) → Res Err Str
  | _, _, [] => .ok []
  | i, written, none :: os => textOf emit (i + 1) written os
  | i, written, some n :: os =>
    emit (!written) n >>= fun t =>
    textOf emit (i + 1) true os >>= fun r =>
    .ok ((if i = 0 then c!"---\n" else []) ++ t ++ r)

/-- The documents of all files and the values of all overlays lie in memory as trees with
no node in common. -/
def RunInMemory (R : Run) (h : Heap) (vals : List Node) : Prop :=
  Forest h (R.files.flatMap (fun f => f.nodes) ++ vals) ∧
  ∀ i, i < R.files.length → ∀ w ∈ R.work i, (R.overlays0 w.2).value ∈ vals

end Yot.Spec
