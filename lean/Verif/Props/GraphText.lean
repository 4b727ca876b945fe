import Verif.Lemmas.GraphText
import Verif.Props.Graph
/-
C79: texts and comments of copied values.
-/
namespace Yot
open Spec

/-- C79 (partial): after a replace that ends, the node has the texts and comments it gets from a value without aliases
(`replaceNode`, see C10 and C09). -/
theorem C79_replace_text_partial (E : Sed) (m m' : GMem) (s : NoDangling m) (k p q : Nat) (hp : p < m.next) (hq : q < m.next)
    (t : Node) (ht : Shows m q t) (h : replaceG E k p q m = some ((), m')) :
    Shows m' p (replaceNode E (.mk { (m.get p).hd with addr := 0 } []) t) ∧ (m'.get p).hd.addr = p := by
  have hct : ∀ x ∈ (m.get q).content, x < m.next := fun x hx => s q hq x (.inl hx)
  have hal : ∀ x ∈ (m.get q).alias.toList, x < m.next := fun x hx => s q hq x (.inr (by simpa using hx))
  rw [replaceG, GM.bind_some] at h
  obtain ⟨c, m0, h0, h⟩ := h
  cases h0
  rw [GM.bind_some] at h
  obtain ⟨c, m0, h0, h⟩ := h
  cases h0
  rw [GM.bind_some] at h
  obtain ⟨al, m1, h1, h⟩ := h
  rw [GM.bind_some] at h
  obtain ⟨ks, m2, h2, h⟩ := h
  have c1 := mapG_copy (copyG_copied k) _ m al m1 s hal h1
  have hct1 : ∀ q' ∈ (m.get q).content, q' < m1.next := fun q' hq' => Nat.lt_of_lt_of_le (hct q' hq') c1.grown.next
  obtain ⟨hd, ts⟩ := t
  rw [Shows] at ht
  have hl := mapG_laid (k := k) ts (fun u _ => copyG_laid u k) m1 _ ks m2 c1.sound hct1 (showsAll_grown c1.grown s ts _ hct ht.2.2) h2
  have hfresh : (Node.mk hd ts).fresh = .mk hd ts := shows_fresh (m := m) (p := q) (.mk hd ts) (by rw [Shows]; exact ht)
  cases h
  refine ⟨?_, by simp⟩
  unfold replaceNode
  rw [hfresh]
  rw [Shows]
  simp only [if_true, Node.hd_mk, Node.content_mk]
  refine ⟨?_, ht.2.1, ?_⟩
  · rw [← ht.1]
    have e := mergeComments_addr E (m.get p).hd (m.get q).hd 0 0 []
    simp only [] at e ⊢
    rw [e]
  · refine laidAll_shows _ m1.next m2.next _ (laidAll_frame _ _ _ _ (fun a ha _ => ?_) hl)
    simp only
    rw [if_neg (by have := c1.grown.next; omega)]

/-- C79 (partial): the nodes that an addition appends have the texts and comments they have without aliases
(`sanitizeNodes`, see C08); the target has its own fields. -/
theorem C79_add_text_partial (E : Sed) (m m' : GMem) (s : NoDangling m) (k p : Nat) (nv : List Nat) (hp : p < m.next) (hn : ∀ q ∈ nv, q < m.next)
    (ts : List Node) (ht : ShowsAll m nv ts) (h : addNodeG E k p nv m = some ((), m')) :
    ∃ new, (m'.get p).content = (m.get p).content ++ new ∧ ShowsAll m' new (sanitizeNodes E ts) ∧
      (m'.get p).hd = { (m.get p).hd with nilc := (m.get p).hd.nilc && nv.isEmpty } ∧ (m'.get p).alias = (m.get p).alias := by
  rw [addNodeG, GM.bind_some] at h
  obtain ⟨temp, m1, h1, h⟩ := h
  have c := mapG_copy (copyG_copied k) _ m temp m1 s hn h1
  have hl := mapG_laid (k := k) ts (fun u _ => copyG_laid u k) m nv temp m1 s hn ht h1
  rw [GM.bind_some] at h
  obtain ⟨ys, m2, h2, h⟩ := h
  obtain ⟨r1, r2⟩ := sanitizesG_laid E k ts m1 _ _ temp ys m2 hl h2
  have hpm : m2.get p = m.get p := by rw [r2 p (.inl hp), c.grown.old p hp]
  have hemp : temp.isEmpty = nv.isEmpty := by
    have := congrArg List.length (c.same id 0)
    simp only [List.length_map] at this
    cases temp <;> cases nv <;> simp_all
  cases h
  refine ⟨temp, by simp [hpm], ?_, by simp [hpm, hemp], by simp [hpm]⟩
  exact laidAll_shows _ _ _ _ (laidAll_frame _ _ _ _ (fun a ha _ => by simp only; rw [if_neg (by omega)]) r1)

/-- The value `[&a 1, *a]` of `twoItems` as a tree. -/
example : Shows twoItems 1 (.mk { kind := .sequence, nilc := false } [.mk { kind := .scalar, anchor := c!"a", value := c!"1" } [],
    .mk { kind := .alias, value := c!"a", hasAlias := true } []]) := by
  simp [Shows, ShowsAll, twoItems]

end Yot
