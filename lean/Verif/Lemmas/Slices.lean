import Verif.Model.Slices
import Verif.Lemmas.Tac
/-
Lemmas about slices and `append`.
-/
namespace Yot

/-- The slice's array exists and its elements are there. -/
def Slice.Valid {α : Type} (m : Mem α) (s : Slice) : Prop :=
  s.len ≤ s.cap ∧ (0 < s.cap → s.arr < m.next) ∧ ∀ i, i < s.len → (m.cell s.arr i).isSome

/-- An `append` to `d` cannot be seen through `x`. -/
def Slice.Sep (d x : Slice) : Prop := d.cap = d.len ∨ x.cap = 0 ∨ x.arr ≠ d.arr

theorem filterMap_range_write {α : Type} (f : Nat → Option α) (n : Nat) (xs : List α) :
    (List.range (n + xs.length)).filterMap (fun j => if n ≤ j ∧ j < n + xs.length then xs[j - n]? else f j) =
      (List.range n).filterMap f ++ xs := by
  rw [List.range_add, List.filterMap_append]
  congr 1
  · apply List.filterMap_congr
    intro j hj
    rw [if_neg]
    have := List.mem_range.1 hj
    omega
  · rw [List.filterMap_map]
    have : ∀ j ∈ List.range xs.length,
        ((fun j => if n ≤ j ∧ j < n + xs.length then xs[j - n]? else f j) ∘ fun x => n + x) j = xs[j]? := by
      intro j hj
      have := List.mem_range.1 hj
      simp only [Function.comp]
      rw [if_pos (by omega)]
      congr 1; omega
    rw [List.filterMap_congr this]
    clear this
    have key : ∀ k, k ≤ xs.length → (List.range k).filterMap (fun j => xs[j]?) = xs.take k := by
      intro k hk
      induction k with
      | zero => rfl
      | succ k ih =>
        rw [List.range_succ, List.filterMap_append, ih (by omega)]
        simp only [List.filterMap_cons, List.filterMap_nil]
        rw [List.getElem?_eq_getElem (by omega)]
        simp [List.take_append_getElem]
    rw [key _ (Nat.le_refl _), List.take_length]

theorem Mem.read_length {α : Type} (m : Mem α) (s : Slice) (h : s.Valid m) : (m.read s).length = s.len := by
  have h := h.2.2
  unfold Mem.read
  generalize s.arr = a at h
  generalize s.len = n at h
  induction n with
  | zero => rfl
  | succ n ih =>
    rw [List.range_succ, List.filterMap_append, List.length_append, ih (fun i hi => h i (by omega))]
    have := h n (by omega)
    rw [Option.isSome_iff_exists] at this
    obtain ⟨x, hx⟩ := this
    simp [hx]

/-- What `append` gives: the elements of the slice followed by the new ones, and
any slice that cannot see it is left alone. -/
theorem Mem.append_spec {α : Type} (grow : Nat → Nat → Nat) (hg : ∀ c n, n ≤ grow c n) (m : Mem α) (s : Slice) (xs : List α)
    (hs : s.Valid m) :
    ∀ r, m.append grow s xs = r →
    r.1.read r.2 = m.read s ++ xs ∧ r.2.Valid r.1 ∧ m.next ≤ r.1.next ∧
    (∀ x : Slice, x.Valid m → s.Sep x → r.1.read x = m.read x ∧ x.Valid r.1) ∧
    (r.2.arr = m.next ∧ r.1.next = m.next + 1 ∨ r.2.arr = s.arr ∧ (xs = [] ∧ r.2 = s ∨ s.cap ≠ s.len)) := by
  intro r hr
  have hlen := Mem.read_length m s hs
  obtain ⟨h1, h2, h3⟩ := hs
  unfold Mem.append at hr
  by_cases hc : s.len + xs.length ≤ s.cap
  · rw [if_pos hc] at hr
    subst hr
    refine ⟨?_, ⟨hc, h2, ?_⟩, Nat.le_refl _, ?_, .inr ⟨rfl, ?_⟩⟩
    · simp only [Mem.read, Mem.write, true_and]
      exact filterMap_range_write (m.cell s.arr) s.len xs
    · intro i hi
      simp only [Mem.write, true_and] at hi ⊢
      split
      · rw [List.getElem?_eq_getElem (by omega)]; rfl
      · exact h3 i (by omega)
    · intro x hx hsep
      have hcell : ∀ i, i < x.len → (m.write s.arr s.len xs).cell x.arr i = m.cell x.arr i := by
        intro i hi
        simp only [Mem.write]
        rw [if_neg]
        rintro ⟨h4, h5, h6⟩
        rcases hsep with h | h | h
        · omega
        · have := hx.1; omega
        · exact h h4
      refine ⟨List.filterMap_congr (fun i hi => hcell i (List.mem_range.1 hi)), hx.1, hx.2.1, ?_⟩
      intro i hi
      rw [hcell i hi]; exact hx.2.2 i hi
    · by_cases hx : xs = []
      · left; subst hx; exact ⟨rfl, by simp⟩
      · right
        have : 0 < xs.length := List.length_pos_iff.2 hx
        omega
  · rw [if_neg hc] at hr
    subst hr
    generalize hm1 : ({ m with next := m.next + 1 } : Mem α).write m.next 0 (m.read s) = m1
    have hold : ∀ a i, a ≠ m.next → m1.cell a i = m.cell a i := by
      intro a i ha
      rw [← hm1]; simp only [Mem.write]
      rw [if_neg (fun h => ha h.1)]
    have hnext : m1.next = m.next + 1 := by rw [← hm1]; rfl
    have hread : (List.range s.len).filterMap (m1.cell m.next) = m.read s := by
      have := filterMap_range_write (m.cell m.next) 0 (m.read s)
      simp only [Nat.zero_add, List.range_zero, List.filterMap_nil, List.nil_append, hlen] at this
      rw [← this, ← hm1]
      apply List.filterMap_congr
      intro i _
      simp only [Mem.write, true_and, Nat.zero_add, hlen]
    refine ⟨?_, ⟨hg _ _, fun _ => ?_, ?_⟩, ?_, ?_, .inl ⟨rfl, hnext⟩⟩
    · have := filterMap_range_write (m1.cell m.next) s.len xs
      rw [hread] at this
      rw [← this]
      simp only [Mem.read, Mem.write, true_and]
    · simp [Mem.write, hnext]
    · intro i hi
      simp only [Mem.write, true_and] at hi ⊢
      split
      · rw [List.getElem?_eq_getElem (by omega)]; rfl
      · have : i < s.len := by omega
        rw [← hm1]
        simp only [Mem.write, true_and, Nat.zero_add, hlen]
        rw [if_pos (by omega), List.getElem?_eq_getElem (by omega)]; rfl
    · simp [Mem.write, hnext]
    · intro x hx _
      have hcell : ∀ i, i < x.len → (m1.write m.next s.len xs).cell x.arr i = m.cell x.arr i := by
        intro i hi
        have hlt := hx.2.1 (by have := hx.1; omega)
        simp only [Mem.write]
        rw [if_neg (by omega), hold _ _ (by omega)]
      refine ⟨List.filterMap_congr (fun i hi => hcell i (List.mem_range.1 hi)), hx.1, ?_, ?_⟩
      · intro hp
        have := hx.2.1 hp
        simp only [Mem.write, hnext]; omega
      · intro i hi
        rw [hcell i hi]; exact hx.2.2 i hi

theorem Mem.read_getElem? {α : Type} (m : Mem α) (s : Slice) (h : s.Valid m) (j : Nat) (hj : j < s.len) :
    (m.read s)[j]? = m.cell s.arr j := by
  have h := h.2.2
  have hl : ∀ n, n ≤ s.len → ((List.range n).filterMap (m.cell s.arr)).length = n := by
    intro n hn
    induction n with
    | zero => rfl
    | succ n ih =>
      have := h n (by omega)
      rw [Option.isSome_iff_exists] at this
      obtain ⟨x, hx⟩ := this
      rw [List.range_succ, List.filterMap_append, List.length_append, ih (by omega)]
      simp [hx]
  unfold Mem.read
  have hsplit : List.range s.len = List.range (j + 1) ++ (List.range (s.len - (j + 1))).map (j + 1 + ·) := by
    rw [← List.range_add]; congr 1; omega
  rw [hsplit, List.filterMap_append, List.getElem?_append_left (by rw [hl _ (by omega)]; omega),
    List.range_succ, List.filterMap_append, List.getElem?_append_right (by rw [hl _ (by omega)]; exact Nat.le_refl _), hl _ (by omega)]
  have := h j hj
  rw [Option.isSome_iff_exists] at this
  obtain ⟨x, hx⟩ := this
  simp [hx]

end Yot
