import Verif.Model.Graph
import Mathlib.Logic.Relation
/-
Overlay values with anchors and aliases: what refers to what, and what a value looks like.
-/
namespace Yot.Spec

/-- The node at `p` has the node at `q` as a child, or is an alias for it. -/
def Refers (m : GMem) (p q : Nat) : Prop := q ∈ (m.get p).content ∨ (m.get p).alias = some q

/-- The nodes that can be reached from `p`. -/
def Reachable (m : GMem) (p q : Nat) : Prop := Relation.ReflTransGen (Refers m) p q

/-- Memory without dangling pointers. -/
def NoDangling (m : GMem) : Prop := ∀ p, p < m.next → ∀ q, Refers m p q → q < m.next

/-- Somewhere in the value at `p` there is a node that contains an alias for itself. -/
def Circular (m : GMem) (p : Nat) : Prop := ∃ q, Reachable m p q ∧ Relation.TransGen (Refers m) q q

/-- A value as seen down to some depth, aliases being followed; addresses do not show. -/
inductive View where
  | deep
  | node (hd : Hdr) (refersTo : List View) (content : List View)

/-- What is seen at `p` down to a depth, when `g` of the fields of a node is looked at. -/
def lookBy (g : Hdr → Hdr) (m : GMem) : Nat → Nat → View
  | 0, _ => .deep
  | d + 1, p => .node (g { (m.get p).hd with addr := 0 }) ((m.get p).alias.toList.map (lookBy g m d))
      ((m.get p).content.map (lookBy g m d))

/-- What is seen at `p` down to a depth. -/
def look (m : GMem) (d p : Nat) : View := lookBy id m d p

/-- What is seen without texts and comments. -/
def outline (m : GMem) (d p : Nat) : View :=
  lookBy (fun hd => { hd with value := [], head := [], line := [], foot := [] }) m d p

/-- A call ends, given enough stack. -/
def Finishes {α : Type} (x : Nat → GM α) (m : GMem) : Prop := ∃ fuel r, x fuel m = some r

/-- All memory there was before is as before, but for the node at `p`. -/
def OnlyAt (m m' : GMem) (p : Nat) : Prop := ∀ a, a < m.next → a ≠ p → m'.get a = m.get a

/-- The nodes at `ps'` are copies of those at `ps`: they look the same, and nothing that can be
reached from them was there before. -/
def Copies (m m' : GMem) (ps ps' : List Nat) : Prop :=
  (∀ d, ps'.map (look m' d) = ps.map (look m d)) ∧ ∀ p ∈ ps', ∀ q, Reachable m' p q → m.next ≤ q ∧ q < m'.next

mutual
/-- The value at `p`, aliases not being followed, is the tree; addresses do not show, and scalars
have no children. -/
def Shows (m : GMem) (p : Nat) : Node → Prop
  | .mk hd ts => { (m.get p).hd with addr := 0 } = hd ∧ (hd.kind = .scalar ∨ hd.kind = .zero → ts = []) ∧ ShowsAll m (m.get p).content ts
/-- On lists. -/
def ShowsAll (m : GMem) : List Nat → List Node → Prop
  | [], [] => True
  | p :: ps, t :: ts => Shows m p t ∧ ShowsAll m ps ts
  | _, _ => False
end

end Yot.Spec
