import Verif.Spec.Query
import Verif.Lemmas.Tree
/-
Facts about document queries.
-/
namespace Yot
open Spec

theorem mem_findAll (qs : List Query) (doc m : Node) : m ∈ findAll qs doc ↔ Matches qs doc m := by
  unfold findAll Matches
  split
  · simp_all
  · simp_all

theorem findAll_eq_nil (qs : List Query) (doc : Node) : findAll qs doc = [] ↔ ¬ ∃ m, Matches qs doc m := by
  rw [List.eq_nil_iff_forall_not_mem]
  simp only [mem_findAll, not_exists]

theorem isZero_iff (v : Node) : isZero v = true ↔ Absent v := by
  unfold isZero Absent Node.contentIsNil
  simp only [Bool.and_eq_true, decide_eq_true_eq, List.isEmpty_iff, Bool.not_eq_true']
  obtain ⟨h, cs⟩ := v
  simp only [Node.fresh, Node.hd_mk, Node.content_mk, Node.mk.injEq]
  obtain ⟨a, k, st, t, v, an, al, nc, he, li, fo, r, c⟩ := h
  cases cs with
  | nil =>
    simp only [Node.freshs, Hdr.mk.injEq, and_true]
    tauto
  | cons c cs => simp [Node.freshs]

theorem plains_eq_map (cs : List Node) : plains cs = cs.map plain := by
  induction cs with
  | nil => rfl
  | cons c cs ih => simp [plains, ih]

theorem cmpEqual_iff (a : Node) : ∀ b, cmpEqual a b = true ↔ plain a = plain b ∧ SameNil a b := by
  induction a using Node.ind with
  | h h1 c1 ih =>
    rintro ⟨h2, c2⟩
    have key : ∀ (xs ys : List Node), (∀ x ∈ xs, x ∈ c1) →
        (cmpEquals xs ys = true ↔ plains xs = plains ys ∧ SameNils xs ys) := by
      intro xs
      induction xs with
      | nil => intro ys _; cases ys <;> simp [cmpEquals, plains, SameNils]
      | cons x xs ihx =>
        intro ys hs
        cases ys with
        | nil => simp [cmpEquals, plains]
        | cons y ys =>
          simp only [cmpEquals, Bool.and_eq_true, plains, List.cons.injEq, SameNils,
            ih x (hs x (by simp)) y, ihx ys (fun z hz => hs z (by simp [hz]))]
          tauto
    have hb : ∀ x y : Bool, (x == y) = true ↔ (x = true ↔ y = true) := by decide
    simp only [cmpEqual, plain, SameNil, Bool.and_eq_true, decide_eq_true_eq, key c1 c2 (fun _ h => h),
      Node.mk.injEq, Hdr.mk.injEq, hb, List.isEmpty_iff]
    tauto

theorem sameNil_of_parsed (a : Node) : ∀ b, Parsed a → Parsed b → plain a = plain b → SameNil a b := by
  induction a using Node.ind with
  | h h1 c1 ih =>
    rintro ⟨h2, c2⟩ ha hb hp
    have key : ∀ (xs ys : List Node), (∀ x ∈ xs, x ∈ c1) → Parseds xs → Parseds ys →
        plains xs = plains ys → SameNils xs ys := by
      intro xs
      induction xs with
      | nil => intro ys _ _ _ _; simp [SameNils]
      | cons x xs ihx =>
        intro ys hs h1 h2 h3
        cases ys with
        | nil => simp [SameNils]
        | cons y ys =>
          simp only [plains, List.cons.injEq] at h3
          exact ⟨ih x (hs x (by simp)) y h1.1 h2.1 h3.1,
            ihx ys (fun z hz => hs z (by simp [hz])) h1.2 h2.2 h3.2⟩
    simp only [Parsed] at ha hb
    simp only [plain, Node.mk.injEq] at hp
    refine ⟨?_, key c1 c2 (fun _ h => h) ha.2 hb.2 hp.2⟩
    have : c1 = [] ↔ c2 = [] := by
      have := congrArg List.length hp.2
      rw [plains_eq_map, plains_eq_map, List.length_map, List.length_map] at this
      rw [← List.length_eq_zero_iff, ← List.length_eq_zero_iff, this]
    tauto

theorem checkCondition_iff (c : Condition) (doc : Node) : checkCondition c doc = true ↔ Holds c doc := by
  unfold checkCondition Holds
  simp only
  by_cases h : findAll c.query doc = []
  · rw [if_pos (by rw [h]; rfl)]
    rw [findAll_eq_nil] at h
    simp [h]
  · have hne := h
    rw [findAll_eq_nil, not_not] at h
    rw [if_neg (by simpa using hne)]
    by_cases hz : isZero c.value = true
    · simp [hz, h, (isZero_iff _).1 hz]
    · have hz' : ¬ Absent c.value := fun hc => hz ((isZero_iff _).2 hc)
      rw [if_neg hz]
      simp only [List.all_eq_true, mem_findAll, cmpEqual_iff, h, hz', not_false_iff, true_and,
        forall_const]

theorem checkQueries_iff (o : Overlay) (doc : Node) :
    checkQueries o.documentQuery doc = true ↔ Qualifies o doc := by
  unfold checkQueries Qualifies
  by_cases h : o.documentQuery = []
  · simp [h]
  · rw [if_neg (by simpa using h)]
    simp [h, checkQuery, List.any_eq_true, List.all_eq_true, checkCondition_iff]

end Yot
