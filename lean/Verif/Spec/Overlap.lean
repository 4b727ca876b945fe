import Verif.Spec.JsonPath
import Verif.Spec.Query
/-
How often the queries of an overlay find a place of a document.
-/
namespace Yot.Spec

/-- Both lists of queries find the same nodes in the document, in whatever order and however
often. -/
def SamePlaces (qs qs' : List Query) (d : Node) : Prop := ∀ m, Matches qs d m ↔ Matches qs' d m

/-- The node at this address is found. -/
def Found (qs : List Query) (d : Node) (a : Nat) : Prop := ∃ m, Matches qs d m ∧ m.hd.addr = a

/-- How often the queries, all together, find the node at this address. -/
def howOften (qs : List Query) (d : Node) (a : Nat) : Nat :=
  (qs.map (fun q => ((q.find d).filter (fun m => m.hd.addr = a)).length)).sum

/-- No node found lies inside another node found. -/
def NoneWithin (qs : List Query) (d : Node) : Prop :=
  ∀ m ∈ nodesOf d, Found qs d m.hd.addr → ∀ b ∈ m.addrs, Found qs d b → b = m.hd.addr

/-- The action done so many times, one after the other. -/
def times (f : Node → Res Err Node) : Nat → Node → Res Err Node
  | 0, n => .ok n
  | k + 1, n => f n >>= times f k

end Yot.Spec
