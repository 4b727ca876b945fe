import Verif.Spec.Commute
/-
The part of a list of overlays that concerns what is at a path.
-/
namespace Yot.Spec

/-- The overlays at or below the path `ks`, in their order, as overlays for a document that
consists of what is at `ks`: their paths without the part up to there. -/
def within (ks : List Str) (ps : List (List Str × Overlay)) : List Overlay :=
  (ps.filter (fun p => ks.isPrefixOf p.1)).map
    (fun p => { p.2 with query := [⟨[], findNames (p.1.drop ks.length)⟩] })

/-- A document that consists of these nodes (one or none). -/
def documentOf (ns : List Node) : Node := .mk { kind := .document } ns

/-- The two lists of nodes are the same (wherever they are in memory). -/
def SameNodes (xs ys : List Node) : Prop := xs.map Node.fresh = ys.map Node.fresh

end Yot.Spec
