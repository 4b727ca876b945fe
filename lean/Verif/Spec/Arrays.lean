import Verif.Model.Arrays
/-
When memory is in order: each node has the array of its children to itself.
-/
namespace Yot.Spec

/-- The elements of the slice are there, without nil pointers, in an array that exists. -/
def SliceOk (m : Mem Nat) (s : Slice) : Prop :=
  s.len ≤ s.cap ∧ (0 < s.cap → s.arr < m.next) ∧ ∀ i, i < s.len → (m.cell s.arr i).isSome

/-- No two nodes share an array. -/
structure OwnArrays (a : AHeap) : Prop where
  ok : ∀ p, SliceOk a.mem (a.get p).content
  own : ∀ p q, p ≠ q → 0 < (a.get p).content.cap → 0 < (a.get q).content.cap → (a.get p).content.arr ≠ (a.get q).content.arr

/-- The memory with each node's `Content` given as the list of its pointers. -/
def asLists (a : AHeap) : Heap := ⟨fun p => ⟨(a.get p).hd, a.mem.read (a.get p).content⟩, a.next⟩

/-- The run-time makes arrays large enough. -/
structure Sane (rt : Runtime) : Prop where
  grow : ∀ c n, n ≤ rt.grow c n
  room : ∀ n, n ≤ rt.room n

end Yot.Spec
