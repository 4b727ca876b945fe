import Verif.Model.Node
import Verif.Spec.Text
import Verif.Spec.Tree
/-
Anchors and aliases of a document, as the YAML text shows them.
-/
namespace Yot.Spec

/-- `&name` or `*name`. -/
inductive Mark where
  | anchor (name : Str)
  | alias (name : Str)
deriving DecidableEq, Repr

/-- What the text shows for one node (aliases have no anchors of their own). -/
def markOf (h : Hdr) : List Mark :=
  (if h.kind = .alias then [.alias h.value] else []) ++ (if h.anchor = [] then [] else [.anchor h.anchor])

mutual
/-- The anchors and aliases of a tree in the order of the text. -/
def marks : Node → List Mark
  | .mk h cs => markOf h ++ markss cs
/-- On lists. -/
def markss : List Node → List Mark
  | [] => []
  | c :: cs => marks c ++ markss cs
end

/-- Every alias refers to an anchor before it. -/
def Resolved (l : List Mark) : Prop := ∀ pre name post, l = pre ++ .alias name :: post → .anchor name ∈ pre

/-- Just the anchors. -/
def anchorsOf (l : List Mark) : List Mark := l.filter (fun m => match m with | .anchor _ => true | .alias _ => false)

/-- The value `n` can be merged into `o` without turning anything into something else: scalar
onto scalar, sequence onto sequence, and mapping onto mapping, where a key they have in common
has values for which the same is true.  (The keys of `n` are all different and without format
markers; children of `o` are keys and values in turn.) -/
inductive Fits : Node → Node → Prop where
  | scalar {o n : Node} (ho : o.hd.kind = .scalar) (hn : n.hd.kind = .scalar) : Fits o n
  | sequence {o n : Node} (ho : o.hd.kind = .sequence) (hn : n.hd.kind = .sequence) : Fits o n
  | mapping {o n : Node} (ho : o.hd.kind = .mapping) (he : o.content.length % 2 = 0) (hn : n.hd.kind = .mapping)
      (hk : (keys n.content).Nodup) (hm : ∀ k ∈ keys n.content, NoMarker k)
      (hv : ∀ e ∈ pairs n.content, ∀ e' ∈ pairs o.content, e'.1.hd.value = e.1.hd.value → Fits e'.2 e.2) : Fits o n

end Yot.Spec
