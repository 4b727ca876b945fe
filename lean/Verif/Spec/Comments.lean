import Verif.Spec.Tree
/-
Comments (C09).
-/
namespace Yot.Spec

/-- The comment a node ends up with: the overlay's if it has one, else its own. -/
def keepUnless (own overlay : Str) : Str := if overlay = [] then own else overlay

/-- The comments of `out` when `over` was merged over `own`: each stays unless `over`
supplies that comment; except that when `over` has an earlier comment (head before line
before foot), the comments it does not have are erased. -/
def CommentsKept (own over out : Hdr) : Prop :=
  out.head = keepUnless own.head over.head ∧
  out.line = (if over.head = [] then keepUnless own.line over.line else over.line) ∧
  out.foot = (if over.head = [] ∧ over.line = [] then keepUnless own.foot over.foot else over.foot)

/-- Each node of `after` that was in `before` (nodes made by an edit have the address
0) has there the same value of `f`. -/
def Keeps {α : Type} (f : Hdr → α) (before after : Node) : Prop :=
  ∀ h' ∈ headers after, h'.addr ≠ 0 → ∃ h ∈ headers before, h.addr = h'.addr ∧ f h = f h'

end Yot.Spec
