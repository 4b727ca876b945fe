import Verif.Model.Str
/-
Go slices with their backing arrays, as far as `append` can show them: used for
the overlay lists of internal/instructions, where several slices may share one
array.
-/
namespace Yot

/-- A slice header.  All slices in question start at index 0 of their array. (instructions.go:115, yamlfile.go:145-173) -/
structure Slice where
  arr : Nat
  len : Nat
  cap : Nat
deriving DecidableEq, Repr

/-- The arrays allocated so far (`< next`) and their cells. (instructions.go:115, yamlfile.go:145-173) -/
structure Mem (α : Type) where
  next : Nat
  cell : Nat → Nat → Option α

/-- The elements of a slice. (instructions.go:115, yamlfile.go:41-45) -/
def Mem.read {α : Type} (m : Mem α) (s : Slice) : List α := (List.range s.len).filterMap (m.cell s.arr)

/-- Store `xs` in array `a` from index `i` on. (instructions.go:115, yamlfile.go:167-168) -/
def Mem.write {α : Type} (m : Mem α) (a i : Nat) (xs : List α) : Mem α :=
  { m with cell := fun b j => if b = a ∧ i ≤ j ∧ j < i + xs.length then xs[j - i]? else m.cell b j }

/-- Go's `append(s, xs...)`: in place if the capacity suffices, else into a newly
allocated array of capacity `grow cap needed`. (instructions.go:115, yamlfile.go:145-173, config.go:163-181) -/
def Mem.append {α : Type} (grow : Nat → Nat → Nat) (m : Mem α) (s : Slice) (xs : List α) : Mem α × Slice :=
  if s.len + xs.length ≤ s.cap then
    (m.write s.arr s.len xs, { s with len := s.len + xs.length })
  else
    ((({ m with next := m.next + 1 } : Mem α).write m.next 0 (m.read s)).write m.next s.len xs,
      ⟨m.next, s.len + xs.length, grow s.cap (s.len + xs.length)⟩)

/-- The growth rule of Go's runtime for small slices (before rounding up to a size
class, which changes nothing in the examples here). (instructions.go:115, config.go:181) -/
def goGrow (cap needed : Nat) : Nat := if needed > 2 * cap then needed else 2 * cap

end Yot
