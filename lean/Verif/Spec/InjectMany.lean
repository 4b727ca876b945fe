import Verif.Spec.Inject
import Verif.Spec.Commute
import Verif.Spec.Order
/-
Specification of injecting a value at several paths of names.
-/
namespace Yot.Spec

/-- `new` is `old` with the value `v` put at each of the paths, one after the other. -/
inductive InjectedAll (v : Node) : List (List Str) → Node → Node → Prop
  | nil (n : Node) : InjectedAll v [] n n
  | cons (p : List Str) (ps : List (List Str)) (old mid new : Node) :
      Injected v p old mid → InjectedAll v ps mid new → InjectedAll v (p :: ps) old new

/-- No two of the paths lead to, or into, the same place. -/
def PairwiseUnrelated (ps : List (List Str)) : Prop := ps.Pairwise Unrelated

/-- For each query of the overlay, an overlay with just that query. -/
def perQuery (o : Overlay) : List Overlay := o.query.map (fun q => { o with query := [q] })

end Yot.Spec
