import Verif.Spec.Inject
/-
When overlays cannot be applied.
-/
namespace Yot.Spec

/-- Some node of the tree is an alias. -/
def HasAlias (n : Node) : Prop := ¬ AllNodes (fun h => h.kind ≠ .alias) n

/-- Going down by some names, the value has an alias where the target has a node. -/
def MeetsAlias (o v : Node) : Prop := ∃ ks x a, walk ks o = [x] ∧ walk ks v = [a] ∧ a.kind = .alias

mutual
/-- No mapping in the tree has a repeated key or a format marker in a key. -/
def PlainKeys : Node → Prop
  | .mk h cs => (h.kind = .mapping → (keys cs).Nodup ∧ ∀ k ∈ keys cs, NoMarker k) ∧ PlainKeyss cs
/-- On lists. -/
def PlainKeyss : List Node → Prop
  | [] => True
  | c :: cs => PlainKeys c ∧ PlainKeyss cs
end

end Yot.Spec
