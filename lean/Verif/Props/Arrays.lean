import Verif.Lemmas.ArraysApply
import Verif.Props.HeapFile
import Verif.Props.Heap
/-
C91: the arrays behind the child lists never show.
-/
namespace Yot
open Spec Ex

/-- One file, from its documents in memory to what the encoder is given: with slices as
with lists, whatever room the run-time leaves in arrays; and no two nodes ever come to
share an array. -/
theorem C91_file (rt : Runtime) (sane : Sane rt) (E : Sed) (dflt : Str) (style fuel : Nat) (roots : List Nat) (js : List JobH)
    (a : AHeap) (h : OwnArrays a) (hs : (fileH E dflt style fuel roots js (asLists a)).1 ≠ .stuck) :
    (fileA rt E dflt style fuel roots js a).1 = (fileH E dflt style fuel roots js (asLists a)).1 ∧
    asLists (fileA rt E dflt style fuel roots js a).2 = (fileH E dflt style fuel roots js (asLists a)).2 ∧
    OwnArrays (fileA rt E dflt style fuel roots js a).2 :=
  Arr.Sim.file sane E dflt style fuel roots js a h hs

/-- The same for a workload alone. -/
theorem C91_apply (rt : Runtime) (sane : Sane rt) (E : Sed) (dflt : Str) (fuel : Nat) (o : Overlay) (v root : Nat)
    (a : AHeap) (h : OwnArrays a) (hs : (applyH E dflt fuel o v root (asLists a)).1 ≠ .stuck) :
    (applyA rt E dflt fuel o v root a).1 = (applyH E dflt fuel o v root (asLists a)).1 ∧
    asLists (applyA rt E dflt fuel o v root a).2 = (applyH E dflt fuel o v root (asLists a)).2 ∧
    OwnArrays (applyA rt E dflt fuel o v root a).2 :=
  Arr.Sim.apply sane E dflt fuel o v root a h hs

/-- Two run-times with different ways of allocating, starting with arrays of different
capacities, write the same documents. -/
theorem C91_runtime (rt rt' : Runtime) (sane : Sane rt) (sane' : Sane rt') (E : Sed) (dflt : Str) (style fuel : Nat) (roots : List Nat)
    (js : List JobH) (a a' : AHeap) (h : OwnArrays a) (h' : OwnArrays a') (same : asLists a = asLists a')
    (hs : (fileH E dflt style fuel roots js (asLists a)).1 ≠ .stuck) :
    (fileA rt E dflt style fuel roots js a).1 = (fileA rt' E dflt style fuel roots js a').1 := by
  rw [(C91_file rt sane E dflt style fuel roots js a h hs).1,
    (C91_file rt' sane' E dflt style fuel roots js a' h' (same ▸ hs)).1, same]

/-- From decoded documents and overlay values in memory, any sequence of workloads ends
as it does on trees (values without alias nodes), given enough stack; and if it succeeds,
the documents then found through the arrays are those the trees give. -/
theorem C91_jobs (rt : Runtime) (sane : Sane rt) (E : Sed) (dflt : Str) (a : AHeap) (own : OwnArrays a) (docs vals : List Node) (js : List Job)
    (f : Forest (asLists a) (docs ++ vals))
    (hv : ∀ j ∈ js, j.overlay.value ∈ vals ∧ WellFormed j.overlay.value ∧ SearchOk j.overlay)
    (hs : ∀ j ∈ js, j.overlay.action = .delete ∨ j.overlay.action = .replace ∨ j.overlay.action = .combine ∨
      AllNodes (fun hd => hd.kind ≠ .document ∧ hd.kind ≠ .alias) j.overlay.value) :
    ∃ K, ∀ fuel, K ≤ fuel →
      OwnArrays (handleJobsA rt E dflt fuel (docs.map (fun t => t.hd.addr)) (js.map Job.inMemory) a).2 ∧
      match handleJobs E dflt docs js with
      | .ok ds => (handleJobsA rt E dflt fuel (docs.map (fun t => t.hd.addr)) (js.map Job.inMemory) a).1 = .ok () ∧
          ∃ docs', Forest (asLists (handleJobsA rt E dflt fuel (docs.map (fun t => t.hd.addr)) (js.map Job.inMemory) a).2) docs' ∧
            docs'.map (fun t => t.hd.addr) = docs.map (fun t => t.hd.addr) ∧ docs'.map copyOf = ds.map copyOf
      | .err e => (handleJobsA rt E dflt fuel (docs.map (fun t => t.hd.addr)) (js.map Job.inMemory) a).1 = .err e
      | .panic => (handleJobsA rt E dflt fuel (docs.map (fun t => t.hd.addr)) (js.map Job.inMemory) a).1 = .panic := by
  obtain ⟨r, h', e, hr⟩ := C53_jobs_outcome E dflt (asLists a) docs vals js f hv hs
  obtain ⟨K, hK⟩ := e
  refine ⟨K, fun fuel hf => ?_⟩
  have hH : handleJobsH E dflt fuel (docs.map (fun t => t.hd.addr)) (js.map Job.inMemory) (asLists a) = (r, h') := hK fuel hf
  have hne : r ≠ .stuck := by
    intro hst
    subst hst
    cases hj : handleJobs E dflt docs js <;> rw [hj] at hr <;> cases hr
  obtain ⟨s1, s2, s3⟩ := Arr.Sim.handleJobs sane E dflt fuel (docs.map (fun t => t.hd.addr)) (js.map Job.inMemory) a own
    (by rw [hH]; exact hne)
  rw [hH] at s1 s2
  refine ⟨s3, ?_⟩
  cases hj : handleJobs E dflt docs js with
  | err x => rw [hj] at hr; subst hr; exact s1
  | panic => rw [hj] at hr; subst hr; exact s1
  | ok ds =>
    rw [hj] at hr
    subst hr
    obtain ⟨docs', ds', d1, d2, d3, d4⟩ := C53_jobs E dflt (asLists a) h' docs vals js f hv ⟨K, hK⟩
    rw [hj] at d3
    cases d3
    dsimp only at s2
    exact ⟨s1, docs', by rw [s2]; exact d1, d2, d4⟩

/-- The whole file: given enough stack, the encoder is given the documents the trees
give, whatever the run-time does with arrays. -/
theorem C91_written (rt : Runtime) (sane : Sane rt) (E : Sed) (dflt : Str) (style : Nat) (a : AHeap) (own : OwnArrays a) (docs vals : List Node)
    (js : List Job) (f : Forest (asLists a) (docs ++ vals))
    (hv : ∀ j ∈ js, j.overlay.value ∈ vals ∧ WellFormed j.overlay.value ∧ SearchOk j.overlay)
    (hs : ∀ j ∈ js, j.overlay.action = .delete ∨ j.overlay.action = .replace ∨ j.overlay.action = .combine ∨
      AllNodes (fun hd => hd.kind ≠ .document ∧ hd.kind ≠ .alias) j.overlay.value) :
    ∃ K, ∀ fuel, K ≤ fuel →
      match handleJobs E dflt docs js with
      | .ok ds => ∃ ts, (fileA rt E dflt style fuel (docs.map (fun t => t.hd.addr)) (js.map Job.inMemory) a).1 = .ok ts ∧
          ts.map (Option.map copyOf) = ds.map (fun d => (givenToEncoder style d).map copyOf)
      | .err e => (fileA rt E dflt style fuel (docs.map (fun t => t.hd.addr)) (js.map Job.inMemory) a).1 = .err e
      | .panic => (fileA rt E dflt style fuel (docs.map (fun t => t.hd.addr)) (js.map Job.inMemory) a).1 = .panic := by
  obtain ⟨r, h', ⟨K, hK⟩, hr⟩ := C53_file E dflt style (asLists a) docs vals js f hv hs
  refine ⟨K, fun fuel hf => ?_⟩
  have hH : fileH E dflt style fuel (docs.map (fun t => t.hd.addr)) (js.map Job.inMemory) (asLists a) = (r, h') := hK fuel hf
  have hne : r ≠ .stuck := by
    intro hst
    subst hst
    cases hj : handleJobs E dflt docs js <;> rw [hj] at hr
    · obtain ⟨_, h, _⟩ := hr; cases h
    · cases hr
    · cases hr
  have s1 := (C91_file rt sane E dflt style fuel (docs.map (fun t => t.hd.addr)) (js.map Job.inMemory) a own (by rw [hH]; exact hne)).1
  rw [hH] at s1
  cases hj : handleJobs E dflt docs js with
  | err x => rw [hj] at hr; subst hr; exact s1
  | panic => rw [hj] at hr; subst hr; exact s1
  | ok ds =>
    rw [hj] at hr
    obtain ⟨ts, rfl, h2⟩ := hr
    exact ⟨ts, s1, h2⟩

/-- What a call on the document `t` leaves alone: the nodes outside it, with their child
lists as read through their arrays. -/
def LeavesAlone (x : Nat → AM Unit) (a : AHeap) (t : Node) : Prop :=
  ∃ K, ∀ fuel, K ≤ fuel → ∀ p, p < a.next → p ∉ t.addrs → (asLists (x fuel a).2).get p = (asLists a).get p

theorem leavesAlone_of {x : Nat → AM Unit} {y : Nat → HM Unit} {a : AHeap} {t : Node} {r : Res Err Node} (own : OwnArrays a)
    (sim : ∀ k, Arr.Sim (x k) (y k)) (d : Does y (asLists a) t r) : LeavesAlone x a t := by
  have key : ∀ (f : Flow Unit) h', f ≠ .stuck → Ends y (asLists a) f h' → Untouched (asLists a) h' t.addrs → LeavesAlone x a t := by
    rintro f h' hf ⟨K, hK⟩ hu
    refine ⟨K, fun fuel hk p hp hn => ?_⟩
    obtain ⟨_, s2, _⟩ := sim fuel a own (by rw [hK fuel hk]; exact hf)
    rw [s2, hK fuel hk]
    exact hu.2 p hp hn
  cases r with
  | ok b => obtain ⟨h', _, e, u, _⟩ := d; exact key _ h' (by simp) e u
  | err e => obtain ⟨h', e, u⟩ := d; exact key _ h' (by simp) e u
  | panic => obtain ⟨h', e, u⟩ := d; exact key _ h' (by simp) e u

/-- Merging into a document, which appends to lists in place where there is room, changes
no list outside it. -/
theorem C91_merge_elsewhere (rt : Runtime) (sane : Sane rt) (E : Sed) (a : AHeap) (own : OwnArrays a) (o n : Node) (vals : List Str)
    (ap : Apart (asLists a) o n) (wf : WellFormed n) :
    LeavesAlone (fun k => mergeA rt E k o.hd.addr n.hd.addr vals) a o :=
  leavesAlone_of own (fun k => (Arr.Sim.merge sane E k).1 _ _ _) (C53_merge E (asLists a) o n vals ap wf)

/-- Deleting from a document, which moves pointers within an array, changes no list
outside it. -/
theorem C91_delete_elsewhere (a : AHeap) (own : OwnArrays a) (t : Node) (f : Forest (asLists a) [t]) (p : Nat) (hp : 0 < p ∧ p < a.next) :
    LeavesAlone (fun k => deleteA k t.hd.addr p) a t :=
  leavesAlone_of own (fun k => Arr.Sim.delete k _ _) (C53_delete (asLists a) t f p hp)

/-- Replacing changes no list outside the node replaced. -/
theorem C91_replace_elsewhere (rt : Runtime) (sane : Sane rt) (E : Sed) (a : AHeap) (own : OwnArrays a) (o n : Node) (ap : Apart (asLists a) o n) :
    LeavesAlone (fun k => replaceA rt E k o.hd.addr n.hd.addr) a o :=
  leavesAlone_of own (fun k => Arr.Sim.replace sane E k _ _) (C53_replace E (asLists a) o n ap)

/-! ### The hypotheses can be met -/

/-- Memory before anything is decoded. -/
def noMemory : AHeap := ⟨fun _ => {}, 1, ⟨0, fun _ _ => none⟩⟩

theorem own_noMemory : OwnArrays noMemory :=
  ⟨fun _ => ⟨Nat.le_refl _, fun h => absurd h (by simp [noMemory]), fun i hi => absurd hi (by simp [noMemory])⟩,
    fun _ _ _ h => absurd h (by simp [noMemory])⟩

/-- Any trees can be put in memory, each node with its own array. -/
theorem C91_any_trees (rt : Runtime) (sane : Sane rt) (ts : List Node) :
    ∃ a us, OwnArrays a ∧ Forest (asLists a) us ∧ us.map copyOf = ts.map copyOf := by
  obtain ⟨h', us, c1, c⟩ := storesH_list (ts := ts) (fun t _ => storeH_spec t) ⟨fun _ => {}, 1⟩ (by decide)
  have e : asLists noMemory = ⟨fun _ => {}, 1⟩ := rfl
  have hns : (storesH ts (asLists noMemory)).1 ≠ .stuck := by rw [e, c1]; simp
  obtain ⟨_, s2, s3⟩ := Arr.Sim.stores sane ts noMemory own_noMemory hns
  rw [e, c1] at s2
  exact ⟨_, us, s3, by rw [s2]; exact c.forest, (funext fresh_eq_copyOf : Node.fresh = copyOf) ▸ c.same⟩

/-- A run-time that leaves room for three more. -/
def roomy : Runtime := ⟨fun _ n => n + 3, fun n => n + 3⟩
/-- A run-time that leaves none. -/
def tight : Runtime := ⟨fun _ n => n, fun n => n⟩

theorem sane_roomy : Sane roomy := ⟨fun _ _ => Nat.le_add_right _ _, fun _ => Nat.le_add_right _ _⟩
theorem sane_tight : Sane tight := ⟨fun _ _ => Nat.le_refl _, fun _ => Nat.le_refl _⟩

/-- Decode two documents and two values, run two workloads on the first document: delete
an item of a list, then append to it. -/
def exFile91 (rt : Runtime) : Flow (List (Option Node)) :=
  ((do
    let ps ← storesA rt [dc (mp [sc c!"l", sq [sc c!"1", sc c!"2", sc c!"3"]]), dc (mp [sc c!"b", sc c!"2"]), sc c!"", mp [sc c!"l", sq [sc c!"9"]]]
    match ps with
    | [d1, d2, v1, v2] =>
      let item : Query := ⟨c!"l[0]", fun t => ((findNames [c!"l"] t).flatMap Node.content).take 1⟩
      fileA rt noSed [] 0 40 [d1, d2]
        [⟨0, { query := [item], action := .delete }, v1⟩, ⟨0, { query := [⟨c!"$", findNames []⟩], action := .merge }, v2⟩]
    | _ => AM.crash : AM (List (Option Node))) noMemory).1

/-- What was written, addresses left out. -/
def given91 : Flow (List (Option Node)) → Option (List (Option Node))
  | .ok ts => some (ts.map (fun t => t.map Node.fresh))
  | _ => none

example : given91 (exFile91 roomy) = some [some (dc (mp [sc c!"l", sq [sc c!"2", sc c!"3", sc c!"9"]])), some (dc (mp [sc c!"b", sc c!"2"]))] ∧
    given91 (exFile91 tight) = given91 (exFile91 roomy) := by
  decide +kernel

/-! Why each node must have its own array: two lists in one array with room to spare;
appending to the one changes the other. -/
example :
    let a : AHeap := ⟨fun p => if p = 1 then ⟨{ kind := .sequence }, ⟨0, 1, 4⟩⟩ else if p = 2 then ⟨{ kind := .sequence }, ⟨0, 2, 4⟩⟩ else {}, 9,
      ⟨1, fun _ j => if j < 2 then some (5 + j) else none⟩⟩
    let a' := (AM.extend roomy 1 { kind := .sequence } [8] a).2
    (asLists a).get 2 = ⟨{ kind := .sequence }, [5, 6]⟩ ∧ (asLists a').get 2 = ⟨{ kind := .sequence }, [5, 8]⟩ := by
  decide

end Yot
