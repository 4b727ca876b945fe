import Verif.Model.Overlay
/-
Moving a tree to other addresses.
-/
namespace Yot.Spec

/-- The fields of a node at another address. -/
def renameHd (ρ : Nat → Nat) (hd : Hdr) : Hdr := { hd with addr := ρ hd.addr }

mutual
/-- The tree at other addresses. -/
def rename (ρ : Nat → Nat) : Node → Node
  | .mk hd cs => .mk (renameHd ρ hd) (renames ρ cs)
/-- On lists. -/
def renames (ρ : Nat → Nat) : List Node → List Node
  | [] => []
  | c :: cs => rename ρ c :: renames ρ cs
end

/-- A search does not depend on where the document lies in memory. -/
def AnyPlace (q : Query) : Prop :=
  ∀ (ρ : Nat → Nat) (t : Node), Function.Injective ρ → t.addrs.Nodup → q.find (rename ρ t) = (q.find t).map (rename ρ)

/-- A search returns pointers into the document. -/
def InTree (q : Query) : Prop := ∀ (t m : Node), m ∈ q.find t → m.hd.addr ∈ t.addrs

end Yot.Spec
