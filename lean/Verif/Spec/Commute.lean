import Verif.Spec.Inject
import Verif.Spec.Order
/-
Overlays at paths of names.
-/
namespace Yot.Spec

/-- The overlay has one query, which is the path of names `ks`. -/
def At (ks : List Str) (o : Overlay) : Prop := ∃ q, o.query = [q] ∧ q.find = findNames ks

/-- Neither path leads to or into what the other leads to. -/
def Unrelated (ks ks' : List Str) : Prop := ¬ ks <+: ks' ∧ ¬ ks' <+: ks

mutual
/-- No mapping in the tree has two entries with the same key. -/
def DistinctKeys : Node → Prop
  | .mk h cs => (h.kind = .mapping → (keys cs).Nodup) ∧ DistinctKeyss cs
/-- On lists. -/
def DistinctKeyss : List Node → Prop
  | [] => True
  | c :: cs => DistinctKeys c ∧ DistinctKeyss cs
end

/-- Both outcomes are success with the same document. -/
def SameDocument (r r' : Res Err Node) : Prop := ∃ d d', r = .ok d ∧ r' = .ok d' ∧ d.fresh = d'.fresh

end Yot.Spec
