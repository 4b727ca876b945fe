import Verif.Props.Inject
import Verif.Props.Apply
/-
C82: onMissing concerns merge and replace.
-/
namespace Yot
open Spec Ex

/-- C82 (partial): a delete or combine that matches nothing leaves the document alone, if inject is
not in effect.  Missing: with inject in effect the claim is false (`C82_delete_injects`). -/
theorem C82_nothing_to_do_partial (E : Sed) (dflt : Str) (o : Overlay) (doc : Node) (_ : o.action = .delete ∨ o.action = .combine)
    (hm : ¬ ∃ m, Matches o.query doc m) (hi : ¬ Injects dflt o.onMissing) : apply E dflt o doc = .ok doc :=
  C18_unqualified_overlay_is_identity E dflt o doc (.inr ⟨hm, hi⟩)

/-- C82: what an overlay that matches nothing does is the same for all four actions. -/
theorem C82_any_action (E : Sed) (dflt : Str) (o : Overlay) (a : Action) (doc : Node) (hm : ¬ ∃ m, Matches o.query doc m) :
    apply E dflt { o with action := a } doc = apply E dflt o doc := by
  have hm' : ¬ ∃ m, Matches ({ o with action := a } : Overlay).query doc m := hm
  by_cases hq : Qualifies o doc
  · have hq' : Qualifies { o with action := a } doc := hq
    by_cases hi : Injects dflt o.onMissing
    · rw [(C18_otherwise E dflt o doc hq).2 hm hi, (C18_otherwise E dflt { o with action := a } doc hq').2 hm' hi]
      rfl
    · rw [C18_unqualified_overlay_is_identity E dflt o doc (.inr ⟨hm, hi⟩),
        C18_unqualified_overlay_is_identity E dflt { o with action := a } doc (.inr ⟨hm', hi⟩)]
  · have hq' : ¬ Qualifies { o with action := a } doc := hq
    rw [C18_unqualified_overlay_is_identity E dflt o doc (.inl hq),
      C18_unqualified_overlay_is_identity E dflt { o with action := a } doc (.inl hq')]

/-- **C82 is false of the code**: with inject as the default, deleting (or combining) something that
is not there creates it: for every document and path of names without a match, the path afterwards
leads to exactly one node, with the overlay's value, which for a delete usually is none. -/
theorem C82_delete_injects (E : Sed) (o : Overlay) (ha : o.action = .delete ∨ o.action = .combine) (doc c : Node) (rest : List Node) (q : Query)
    (ks : List Str) (hdoc : doc.hd.kind = .document) (hc : doc.content = c :: rest) (hw : WellFormed c)
    (hp : PathOf ks q.str) (hq : q.find = findNames ks) (hm : ∀ k ∈ ks, NoMarker k)
    (ho : o.query = [q]) (hQ : Qualifies o doc) (hd : o.onMissing.action = .default)
    (hnone : ¬ ∃ m, Matches o.query doc m) :
    ∃ doc' m, apply E c!"inject" o doc = .ok doc' ∧ doc' ≠ doc ∧ q.find doc' = [m] ∧ HoldsValue o.value m := by
  obtain ⟨doc', m, h1, h2, h3⟩ := C26_inject_creates_path E c!"inject" o doc c rest q ks hdoc hc hw hp hq hm ho hQ
    (by rw [← resolve_inject_iff]; unfold OnMissing.resolve; rw [hd, if_pos ⟨rfl, by decide⟩]) hnone
  refine ⟨doc', m, h1, ?_, h2, h3⟩
  rintro rfl
  refine hnone ⟨m, by rw [hc]; simp, q, by rw [ho]; simp, by rw [h2]; simp⟩

/-- C82: the same in figures: deleting `b` in `a: 1` with the default inject. -/
theorem C82_delete_counterexample : (tree (apply noSed c!"inject" { query := [⟨c!"b", findNames [c!"b"]⟩], action := .delete }
    (dc (mp [sc c!"a", sc c!"1" c!"!!int"])))).map (fun d => d.content.map fun m => m.content.map fun n => (n.hd.kind, n.hd.value)) =
      some [[(.scalar, c!"a"), (.scalar, c!"1"), (.scalar, c!"b"), (.zero, [])]] := by decide +kernel

/-- A combine that matches nothing. -/
example : tree (apply noSed c!"ignore" { query := [⟨c!"b", findNames [c!"b"]⟩], action := .combine, value := sc c!"x" }
    (dc (mp [sc c!"a", sc c!"1" c!"!!int"]))) = some (dc (mp [sc c!"a", sc c!"1" c!"!!int"])) := by decide +kernel
example : ¬ ∃ m, Matches [⟨c!"b", findNames [c!"b"]⟩] (dc (mp [sc c!"a", sc c!"1" c!"!!int"])) m := by
  rw [← findAll_eq_nil]; decide
example : tree (apply noSed c!"inject" { query := [⟨c!"b", findNames [c!"b"]⟩], action := .delete }
    (dc (mp [sc c!"a", sc c!"1"]))) = tree (apply noSed c!"inject" { query := [⟨c!"b", findNames [c!"b"]⟩], action := .merge }
    (dc (mp [sc c!"a", sc c!"1"]))) := by decide +kernel

end Yot
