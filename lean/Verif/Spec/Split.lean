import Verif.Spec.Commute
/-
An overlay with several queries as several overlays.
-/
namespace Yot.Spec

/-- The queries of the overlay are these paths of names, in this order. -/
def AtAll (kss : List (List Str)) (o : Overlay) : Prop := o.query.map (·.find) = kss.map findNames

/-- For each query of the overlay the same overlay with that query alone. -/
def oneEach (o : Overlay) : List Overlay := o.query.map (fun q => { o with query := [q] })

/-- None of the paths leads to or into what another one leads to. -/
def AllUnrelated (kss : List (List Str)) : Prop := kss.Pairwise Unrelated

/-- Both outcomes are the same, wherever the nodes are in memory. -/
def SameOutcome : Res Err Node → Res Err Node → Prop
  | .ok d, .ok d' => d.fresh = d'.fresh
  | .err e, .err e' => e = e'
  | .panic, .panic => True
  | _, _ => False

end Yot.Spec
