import Verif.Spec.Graph
import Verif.Model.Compare
/-
When a match is the same as the value of a condition, aliases being followed.
-/
namespace Yot.Spec

/-- What counts in a comparison: kind, tag, text, anchor, and whether there is no list of children
at all. -/
def counts (h : Hdr) : Hdr := { kind := h.kind, tag := h.tag, value := h.value, anchor := h.anchor, nilc := h.nilc }

/-- The values at `p` and `q` are the same as far as can be seen by going down to any depth,
through children and from aliases to what they stand for. -/
def SameValue (m : GMem) (p q : Nat) : Prop := ∀ d, lookBy counts m d p = lookBy counts m d q

/-- Where there is no list of children, there are no children. -/
def NilMeans (m : GMem) : Prop := ∀ p, (m.get p).hd.nilc = true → (m.get p).content = []

end Yot.Spec
