import Verif.Lemmas.ArraysDelete
/-
internal/overlays on slices does what it does on lists.
-/
namespace Yot.Arr
open Spec

variable {rt : Runtime} (sane : Sane rt) (E : Sed) (dflt : Str)

include sane

theorem Sim.doOne (fuel : Nat) (action : Action) (root v p : Nat) : Sim (doOneA rt E fuel action root v p) (doOneH E fuel action root v p) := by
  unfold doOneA doOneH
  cases action
  case delete => exact Sim.delete _ _ _
  case replace => exact Sim.replace sane E _ _ _
  case combine => exact Sim.combine E _ _
  all_goals exact (Sim.merge sane E fuel).1 _ _ _

theorem Sim.doAction (fuel : Nat) (action : Action) (root v : Nat) (ps : List Nat) :
    Sim (doActionA rt E fuel action root v ps) (doActionH E fuel action root v ps) :=
  (Sim.map (Sim.doOne sane E fuel action root v) ps).bind fun _ => Sim.pure ()

omit sane in
theorem Sim.orCrash {α : Type} {x : AM α} {y : HM α} (h : Sim x y) : Sim (orCrashA x) (orCrashH y) := by
  intro a ha hs
  have hy : (y (asLists a)).1 ≠ .stuck := by
    intro e
    apply hs
    unfold orCrashH
    rcases hq : y (asLists a) with ⟨r, h'⟩
    rw [hq] at e
    cases e
    rfl
  obtain ⟨h1, h2, h3⟩ := h a ha hy
  rcases hq : y (asLists a) with ⟨r, h'⟩
  rcases hp : x a with ⟨r', a'⟩
  rw [hq, hp] at h1 h2
  rw [hp] at h3
  dsimp only at h1 h2 h3
  subst h1
  subst h2
  unfold orCrashA orCrashH
  rw [hq, hp]
  cases r' <;> exact ⟨rfl, rfl, h3⟩

omit sane in
theorem Sim.read : ∀ fuel p, Sim (readA fuel p) (readH fuel p)
  | 0, _ => Sim.stop _
  | fuel + 1, p => by
    rw [readA, readH]
    exact (Sim.rd p).bind fun c => (Sim.map (Sim.read fuel) _).bind fun kids => Sim.pure _

mutual
theorem Sim.store : ∀ t, Sim (storeA rt t) (storeH t)
  | .mk hd cs => by
    rw [storeA, storeH]
    exact (Sim.stores cs).bind fun kids => Sim.alloc sane _ _
theorem Sim.stores : ∀ ts, Sim (storesA rt ts) (storesH ts)
  | [] => by rw [storesA, storesH]; exact Sim.pure _
  | c :: cs => by
    rw [storesA, storesH]
    exact (Sim.store c).bind fun p => (Sim.stores cs).bind fun ps => Sim.pure _
end

theorem Sim.buildPaths (fuel : Nat) (bps : List Node) : Sim (buildPathsA rt E fuel bps) (buildPathsH E fuel bps) := by
  unfold buildPathsA buildPathsH
  refine (Sim.stores sane bps).bind fun ps => ?_
  cases ps with
  | nil => exact Sim.crash
  | cons p qs => exact (Sim.map (fun q => (Sim.merge sane E fuel).1 p q []) qs).bind fun _ => Sim.pure p

theorem Sim.doInjectPath (fuel v : Nat) (ip : List Query) (root : Nat) :
    Sim (doInjectPathA rt E fuel v ip root) (doInjectPathH E fuel v ip root) := by
  unfold doInjectPathA doInjectPathH
  cases newPaths (ip.map Query.str) with
  | err e => exact Sim.fail e
  | panic => exact Sim.crash
  | ok bps =>
    refine (Sim.orCrash (Sim.buildPaths sane E fuel bps)).bind fun y => ((Sim.merge sane E fuel).1 _ _ _).bind fun _ => ?_
    exact (Sim.read fuel root).bind fun t => Sim.doAction sane E _ _ _ _ _

theorem Sim.handleInjectPath (fuel : Nat) (o : Overlay) (v root : Nat) :
    Sim (handleInjectPathA rt E fuel o v root) (handleInjectPathH E fuel o v root) := by
  unfold handleInjectPathA handleInjectPathH
  rcases newPaths (o.query.map Query.str) with bps | e | _
  · exact Sim.doInjectPath sane E _ _ _ _
  · cases e
    case invalidPathSyntax =>
      dsimp only
      cases o.onMissing.injectPath with
      | none => exact Sim.pure ()
      | some ip => exact Sim.doInjectPath sane E _ _ _ _
    all_goals exact Sim.fail _
  · exact Sim.crash

theorem Sim.onMissing (fuel : Nat) (o : Overlay) (v root : Nat) :
    Sim (onMissingA rt E dflt fuel o v root) (onMissingH E dflt fuel o v root) := by
  unfold onMissingA onMissingH
  cases (o.onMissing.resolve dflt).action <;> first | exact Sim.handleInjectPath sane E _ _ _ _ | exact Sim.pure ()

theorem Sim.apply (fuel : Nat) (o : Overlay) (v root : Nat) :
    Sim (applyA rt E dflt fuel o v root) (applyH E dflt fuel o v root) := by
  unfold applyA applyH
  refine (Sim.read fuel root).bind fun t => Sim.ite Iff.rfl (Sim.pure ()) ?_
  exact Sim.ite Iff.rfl (Sim.onMissing sane E dflt _ _ _ _) (Sim.doAction sane E _ _ _ _ _)

theorem Sim.handleJob (fuel : Nat) (roots : List Nat) (j : JobH) :
    Sim (handleJobA rt E dflt fuel roots j) (handleJobH E dflt fuel roots j) := by
  unfold handleJobA handleJobH
  cases roots[j.index]? with
  | none => exact Sim.pure ()
  | some p => exact Sim.apply sane E dflt _ _ _ _

theorem Sim.handleJobs (fuel : Nat) (roots : List Nat) : ∀ js,
    Sim (handleJobsA rt E dflt fuel roots js) (handleJobsH E dflt fuel roots js)
  | [] => Sim.pure ()
  | j :: js => by
    rw [handleJobsA, handleJobsH]
    exact (Sim.handleJob sane E dflt fuel roots j).bind fun _ => Sim.handleJobs fuel roots js

omit sane in
theorem Sim.encodeOne (style fuel p : Nat) : Sim (encodeOneA style fuel p) (encodeOneH style fuel p) := by
  unfold encodeOneA encodeOneH
  refine (Sim.rd p).bind fun c => Sim.ite Iff.rfl (Sim.pure none) ?_
  exact (Sim.setStyle style fuel p).bind fun _ => (Sim.read fuel p).bind fun t => Sim.pure _

theorem Sim.file (style fuel : Nat) (roots : List Nat) (js : List JobH) :
    Sim (fileA rt E dflt style fuel roots js) (fileH E dflt style fuel roots js) := by
  unfold fileA fileH
  exact (Sim.handleJobs sane E dflt fuel roots js).bind fun _ => Sim.map (Sim.encodeOne style fuel) roots

end Yot.Arr
