import Verif.Lemmas.HeapApply
import Verif.Spec.Build
/-
C52, C53 for whole runs: any sequence of workloads, overlays being shared.
-/
namespace Yot
open Spec HM Ex

/-- The workload in memory: the overlay's value is the tree at its address. -/
def Job.inMemory (j : Job) : JobH := ⟨j.index, j.overlay, j.overlay.value.hd.addr⟩

/-- The searches of the overlay return nodes of the searched document, and the same
ones wherever it lies. -/
def SearchOk (o : Overlay) : Prop := ∀ q ∈ o.queries, AnyPlace q ∧ InTree q

theorem applyJob_of_fresh (E : Sed) (dflt : Str) (o : Overlay) {s t : Node} (h : s.fresh = t.fresh) :
    applyJob E dflt o s = applyJob E dflt o t := by
  rw [applyJob, applyJob, label_of_fresh h]

theorem getElem?_of_fresh {ds ts : List Node} (h : ts.map Node.fresh = ds.map Node.fresh) (i : Nat) :
    (ts[i]? = none ∧ ds[i]? = none) ∨ ∃ t d, ts[i]? = some t ∧ ds[i]? = some d ∧ t.fresh = d.fresh := by
  have h1 := congrArg (fun l => l[i]?) h
  simp only [List.getElem?_map] at h1
  cases ht : ts[i]? <;> cases hd : ds[i]? <;> simp_all

theorem jobs_spec (E : Sed) (dflt : Str) (vals : List Node) (js : List Job)
    (hv : ∀ j ∈ js, j.overlay.value ∈ vals ∧ WellFormed j.overlay.value ∧ SearchOk j.overlay) :
    ∀ (h : Heap) (docs ds : List Node), Forest h (docs ++ vals) → docs.map Node.fresh = ds.map Node.fresh →
      ∃ f h', Ends (fun k => handleJobsH E dflt k (docs.map (fun t => t.hd.addr)) (js.map Job.inMemory)) h f h' ∧
        f ≠ .stuck ∧ Forest h' vals ∧
        (f = .ok () → ∃ docs' ds', handleJobs E dflt ds js = .ok ds' ∧ docs'.map Node.fresh = ds'.map Node.fresh ∧
          docs'.map (fun t => t.hd.addr) = docs.map (fun t => t.hd.addr) ∧ Forest h' (docs' ++ vals)) ∧
        ((∀ j ∈ js, Safe j.overlay) → failsAs f (handleJobs E dflt ds js)) := by
  induction js with
  | nil =>
    intro h docs ds f hf
    exact ⟨.ok (), h, Ends.const rfl, by simp, (forest_append.1 f).2.1, fun _ => ⟨docs, ds, rfl, hf, rfl, f⟩, fun _ => trivial⟩
  | cons j js ih =>
    intro h docs ds f hf
    obtain ⟨v1, v2, v3⟩ := hv j (by simp)
    have ih := ih (fun j' hj' => hv j' (by simp [hj']))
    have hfold : ∀ ds, handleJobs E dflt ds (j :: js) = (handleJob E dflt ds j >>= fun ds1 => handleJobs E dflt ds1 js) :=
      fun ds => List.foldlM_cons
    rw [hfold]
    have hrun : ∀ k, handleJobsH E dflt k (docs.map (fun t => t.hd.addr)) ((j :: js).map Job.inMemory) =
        (handleJobH E dflt k (docs.map (fun t => t.hd.addr)) j.inMemory >>= fun _ =>
          handleJobsH E dflt k (docs.map (fun t => t.hd.addr)) (js.map Job.inMemory)) := fun k => rfl
    simp only [hrun]
    have hroot : (docs.map (fun t => t.hd.addr))[j.index]? = (docs[j.index]?).map (fun t => t.hd.addr) := List.getElem?_map
    have hidx : j.inMemory.index = j.index := rfl
    rcases getElem?_of_fresh hf j.index with ⟨d1, d2⟩ | ⟨t, d, d1, d2, d3⟩
    · have hj : handleJob E dflt ds j = .ok ds := by unfold handleJob; rw [d2]
      have hjH : ∀ k, handleJobH E dflt k (docs.map (fun t => t.hd.addr)) j.inMemory = pure () := fun k => by
        unfold handleJobH; rw [hidx, hroot, d1]; rfl
      rw [hj, Res.bind_ok]
      simp only [hjH]
      obtain ⟨f', h', a1, a2, a3, a4, a5⟩ := ih h docs ds f hf
      exact ⟨f', h', Ends.bind (Ends.const rfl) a1, a2, a3, a4, fun hs => a5 (fun j' hj' => hs j' (by simp [hj']))⟩
    · -- the document of this workload
      obtain ⟨pre, post, hdocs, hlen⟩ : ∃ pre post, docs = pre ++ t :: post ∧ pre.length = j.index := by
        obtain ⟨hi, he⟩ := List.getElem?_eq_some_iff.1 d1
        refine ⟨docs.take j.index, docs.drop (j.index + 1), ?_, by simp; omega⟩
        rw [← he, List.getElem_cons_drop, List.take_append_drop]
      have hp : (docs ++ vals).Perm (t :: (pre ++ post ++ vals)) := by
        rw [hdocs]
        have : pre ++ t :: post ++ vals = pre ++ t :: (post ++ vals) := by simp
        rw [this, List.append_assoc]
        exact List.perm_middle
      obtain ⟨g1, g2, g3⟩ := forest_cons.1 (f.perm hp)
      have hap : Apart h t j.overlay.value := by
        refine ⟨g1, (forest_append.1 f).2.1.mem v1, fun a ha hb => g3 a ha ?_⟩
        rw [addrss_append, List.mem_append]
        exact .inr (addrs_subset v1 hb)
      obtain ⟨r, h1, ed⟩ := applyH_edits E dflt j.overlay hap v2 (fun q hq => (v3 q hq).1) (fun q hq => (v3 q hq).2)
      have hjH : ∀ k, handleJobH E dflt k (docs.map (fun t => t.hd.addr)) j.inMemory =
          applyH E dflt k j.overlay j.overlay.value.hd.addr t.hd.addr := fun k => by
        unfold handleJobH; rw [hidx, hroot, d1]; rfl
      have hj : handleJob E dflt ds j = (applyJob E dflt j.overlay t >>= fun d' => .ok (ds.set j.index d')) := by
        unfold handleJob; rw [d2]
        simp only
        rw [applyJob_of_fresh E dflt j.overlay d3]
      simp only [hjH]
      rw [hj]
      have fv1 : Forest h1 vals := (forest_append.1 f).2.1.frame ed.frame (fun a ha hb => g3 a hb (by
        rw [addrss_append, List.mem_append]; exact .inr ha))
      cases r with
      | stuck => exact absurd rfl ed.done
      | err e =>
        refine ⟨.err e, h1, Ends.bind_err ed.ends, by simp, fv1, fun h => by simp at h, fun hs => ?_⟩
        have : applyJob E dflt j.overlay t = .err e := ed.bad (hs j (by simp))
        rw [this]; rfl
      | panic =>
        refine ⟨.panic, h1, Ends.bind_panic ed.ends, by simp, fv1, fun h => by simp at h, fun hs => ?_⟩
        have : applyJob E dflt j.overlay t = .panic := ed.bad (hs j (by simp))
        rw [this]; rfl
      | ok _ =>
        obtain ⟨t', G, d', u, hd', hfr⟩ := ed.good rfl
        rw [hd', Res.bind_ok, Res.bind_ok]
        obtain ⟨o1, o2⟩ := u.other g2 g3
        have f1 : Forest h1 ((docs.set j.index t') ++ vals) := by
          have hset : docs.set j.index t' = pre ++ t' :: post := by
            rw [hdocs, ← hlen]; simp
          rw [hset]
          have hp' : (t' :: (pre ++ post ++ vals)).Perm (pre ++ t' :: post ++ vals) := by
            have : pre ++ t' :: post ++ vals = pre ++ t' :: (post ++ vals) := by simp
            rw [this, List.append_assoc]
            exact List.perm_middle.symm
          exact (forest_cons.2 ⟨(forest_cons.1 u.forest).1, o1, fun a ha => o2 a (by rw [Node.addrss]; simp [ha])⟩).perm hp'
        have hroots : (docs.set j.index t').map (fun t => t.hd.addr) = docs.map (fun t => t.hd.addr) := by
          rw [List.map_set, u.root]
          obtain ⟨hi, he⟩ := List.getElem?_eq_some_iff.1 d1
          apply List.ext_getElem (by simp)
          intro n h1 h2
          rw [List.getElem_set]
          split_ifs with hn
          · subst hn; simp [he]
          · rfl
        obtain ⟨f', h', a1, a2, a3, a4, a5⟩ := ih h1 (docs.set j.index t') (ds.set j.index d') f1 (by
          rw [List.map_set, List.map_set, hf, hfr])
        rw [hroots] at a1 a4
        exact ⟨f', h', Ends.bind ed.ends a1, a2, a3, a4, fun hs => a5 (fun j' hj' => hs j' (by simp [hj']))⟩

/-- A sequence of workloads, in any order and over any documents, sharing overlays:
the overlays' values are never changed, however the run ends; if it succeeds, no
document shares a cell with a value or another document. -/
theorem C52_jobs (E : Sed) (dflt : Str) (h : Heap) (docs vals : List Node) (js : List Job) (f : Forest h (docs ++ vals))
    (hv : ∀ j ∈ js, j.overlay.value ∈ vals ∧ WellFormed j.overlay.value ∧ SearchOk j.overlay) :
    ∃ r h', Ends (fun k => handleJobsH E dflt k (docs.map (fun t => t.hd.addr)) (js.map Job.inMemory)) h r h' ∧
      r ≠ .stuck ∧ Forest h' vals ∧
      (r = .ok () → ∃ docs', docs'.map (fun t => t.hd.addr) = docs.map (fun t => t.hd.addr) ∧ Forest h' (docs' ++ vals)) := by
  obtain ⟨r, h', a1, a2, a3, a4, _⟩ := jobs_spec E dflt vals js hv h docs docs f rfl
  refine ⟨r, h', a1, a2, a3, fun hr => ?_⟩
  obtain ⟨docs', _, _, _, b3, b4⟩ := a4 hr
  exact ⟨docs', b3, b4⟩

/-- The same run on trees (`handleJobs`, which the other properties are about) gives
the same documents, up to where they lie. -/
theorem C53_jobs (E : Sed) (dflt : Str) (h h' : Heap) (docs vals : List Node) (js : List Job) (f : Forest h (docs ++ vals))
    (hv : ∀ j ∈ js, j.overlay.value ∈ vals ∧ WellFormed j.overlay.value ∧ SearchOk j.overlay)
    (hr : Ends (fun k => handleJobsH E dflt k (docs.map (fun t => t.hd.addr)) (js.map Job.inMemory)) h (.ok ()) h') :
    ∃ docs' ds, Forest h' docs' ∧ docs'.map (fun t => t.hd.addr) = docs.map (fun t => t.hd.addr) ∧
      handleJobs E dflt docs js = .ok ds ∧ docs'.map copyOf = ds.map copyOf := by
  obtain ⟨r, h'', a1, _, _, a4, _⟩ := jobs_spec E dflt vals js hv h docs docs f rfl
  obtain ⟨rfl, rfl⟩ := hr.unique a1
  obtain ⟨docs', ds, b1, b2, b3, b4⟩ := a4 rfl
  exact ⟨docs', ds, (forest_append.1 b4).1, b3, b1, (funext fresh_eq_copyOf : Node.fresh = copyOf) ▸ b2⟩

/-- And it ends the same way, if the values merged have no alias nodes. -/
theorem C53_jobs_outcome (E : Sed) (dflt : Str) (h : Heap) (docs vals : List Node) (js : List Job) (f : Forest h (docs ++ vals))
    (hv : ∀ j ∈ js, j.overlay.value ∈ vals ∧ WellFormed j.overlay.value ∧ SearchOk j.overlay)
    (hs : ∀ j ∈ js, j.overlay.action = .delete ∨ j.overlay.action = .replace ∨ j.overlay.action = .combine ∨
      AllNodes (fun hd => hd.kind ≠ .document ∧ hd.kind ≠ .alias) j.overlay.value) :
    ∃ r h', Ends (fun k => handleJobsH E dflt k (docs.map (fun t => t.hd.addr)) (js.map Job.inMemory)) h r h' ∧
      (match handleJobs E dflt docs js with
       | .ok _ => r = .ok ()
       | .err e => r = .err e
       | .panic => r = .panic) := by
  obtain ⟨r, h', a1, a2, _, a4, a5⟩ := jobs_spec E dflt vals js hv h docs docs f rfl
  refine ⟨r, h', a1, ?_⟩
  have a5 := a5 hs
  cases r with
  | ok _ => obtain ⟨_, ds, b1, _⟩ := a4 rfl; rw [b1]
  | err e => rw [show handleJobs E dflt docs js = .err e from a5]
  | panic => rw [show handleJobs E dflt docs js = .panic from a5]
  | stuck => exact absurd rfl a2

/-! ### The hypotheses can be met -/

/-- Any trees can be put in memory. -/
theorem C53_any_trees (ts : List Node) : ∃ h us, Forest h us ∧ us.map copyOf = ts.map copyOf := by
  obtain ⟨h', us, _, c⟩ := storesH_list (ts := ts) (fun t _ => storeH_spec t) ⟨fun _ => {}, 1⟩ (by decide)
  exact ⟨h', us, c.forest, (funext fresh_eq_copyOf : Node.fresh = copyOf) ▸ c.same⟩

theorem pairs_rename (ρ : Nat → Nat) (cs : List Node) :
    pairs (cs.map (rename ρ)) = (pairs cs).map (fun e => (rename ρ e.1, rename ρ e.2)) := by
  induction cs using pairInduction with
  | h0 => rfl
  | h1 a => rfl
  | h2 a b cs ih => simp [pairs, ih]

theorem firstAt_rename (ρ : Nat → Nat) (k : Str) (es : List (Node × Node)) :
    firstAt k (es.map (fun e => (rename ρ e.1, rename ρ e.2))) = (firstAt k es).map (rename ρ) := by
  induction es with
  | nil => rfl
  | cons e es ih =>
    simp only [List.map_cons, firstAt, rename_hd]
    have : (renameHd ρ e.1.hd).value = e.1.hd.value := rfl
    rw [this, ih]
    split_ifs <;> rfl

theorem walk_rename (ρ : Nat → Nat) (ks : List Str) : ∀ t, walk ks (rename ρ t) = (walk ks t).map (rename ρ) := by
  induction ks with
  | nil => intro t; rfl
  | cons k ks ih =>
    intro t
    have : entriesOf (rename ρ t) = (entriesOf t).map (fun e => (rename ρ e.1, rename ρ e.2)) := by
      unfold entriesOf
      have hk : (rename ρ t).hd.kind = t.hd.kind := by rw [rename_hd]; rfl
      rw [hk, rename_content, pairs_rename]
      split_ifs <;> rfl
    rw [walk, walk, this, firstAt_rename]
    cases firstAt k (entriesOf t) with
    | none => rfl
    | some v => exact ih v

theorem firstAt_mem' {k : Str} {es : List (Node × Node)} {v : Node} (h : firstAt k es = some v) : ∃ e ∈ es, e.2 = v := by
  induction es with
  | nil => simp [firstAt] at h
  | cons e es ih =>
    rw [firstAt] at h
    split_ifs at h
    · exact ⟨e, by simp, by simpa using h⟩
    · obtain ⟨e', h1, h2⟩ := ih h
      exact ⟨e', by simp [h1], h2⟩

theorem pairs_mem' {cs : List Node} {e : Node × Node} (h : e ∈ pairs cs) : e.2 ∈ cs := by
  induction cs using pairInduction with
  | h0 => simp [pairs] at h
  | h1 a => simp [pairs] at h
  | h2 a b cs ih =>
    rw [pairs, List.mem_cons] at h
    rcases h with rfl | h
    · simp
    · simp [ih h]

theorem walk_in (ks : List Str) : ∀ t, ∀ m ∈ walk ks t, m.hd.addr ∈ t.addrs := by
  induction ks with
  | nil => intro t m hm; rw [walk, List.mem_singleton] at hm; subst hm; exact root_mem_addrs m
  | cons k ks ih =>
    intro t m hm
    rw [walk] at hm
    cases hf : firstAt k (entriesOf t) with
    | none => rw [hf] at hm; simp at hm
    | some v =>
      rw [hf] at hm
      obtain ⟨e, h1, rfl⟩ := firstAt_mem' hf
      unfold entriesOf at h1
      split_ifs at h1
      · exact mem_addrs_child (pairs_mem' h1) (ih _ _ hm)
      · simp at h1

/-- Searches by child names are such searches. -/
theorem C53_names_searchable (s : Str) (ks : List Str) : AnyPlace ⟨s, findNames ks⟩ ∧ InTree ⟨s, findNames ks⟩ := by
  constructor
  · intro ρ t _ _
    show findNames ks (rename ρ t) = (findNames ks t).map (rename ρ)
    unfold findNames
    have hk : (rename ρ t).hd.kind = t.hd.kind := by rw [rename_hd]; rfl
    rw [hk, rename_content]
    split_ifs
    · cases t.content with
      | nil => rfl
      | cons c cs => exact walk_rename ρ ks c
    · exact walk_rename ρ ks t
  · intro t m hm
    change m ∈ findNames ks t at hm
    unfold findNames at hm
    split_ifs at hm
    · cases hc : t.content with
      | nil => rw [hc] at hm; simp at hm
      | cons c cs =>
        rw [hc] at hm
        exact mem_addrs_child (by rw [hc]; simp) (walk_in ks c m hm)
    · exact walk_in ks t m hm

/-! Two documents and one shared overlay: its value is merged into both. -/

/-- The trees of the example. -/
def exTrees : List Node := [dc (mp [sc c!"a", sc c!"1"]), dc (mp [sc c!"b", sc c!"2"]), mp [sc c!"b", sc c!"9"]]

/-- The trees found at some pointers, addresses left out. -/
def treesAt (ps : List Nat) (h : Heap) : Option (List Node) :=
  match mapH (readH 20) ps h with
  | (.ok ts, _) => some (ts.map Node.fresh)
  | _ => none

example :
    let o : Overlay := { query := [⟨c!"$", findNames []⟩], action := .merge }
    let m := storesH exTrees ⟨fun _ => {}, 1⟩
    let r := handleJobsH noSed [] 30 [4, 8] [⟨0, o, 11⟩, ⟨1, o, 11⟩] m.2
    m.1 = .ok [4, 8, 11] ∧ r.1 = .ok () ∧
    treesAt [4, 8, 11] r.2 =
      some [dc (mp [sc c!"a", sc c!"1", sc c!"b", sc c!"9"]), dc (mp [sc c!"b", sc c!"9"]), mp [sc c!"b", sc c!"9"]] := by
  decide +kernel

/-! Why C53_action asks for values without alias nodes or unnested matches: merging
into the sequence cuts its item off; the item is a match too, and merging into it
fails in memory although it is no longer part of the document. -/
example :
    let al : Node := .mk { kind := .alias, value := c!"x", hasAlias := true } []
    let v := mp [sc c!"k", al]
    let doc := dc (sq [mp [sc c!"k", sc c!"1"]])
    let m := storesH [doc, v] ⟨fun _ => {}, 1⟩
    let o : Overlay := { action := .merge, value := v }
    let ms := [doc.label.content.head!, doc.label.content.head!.content.head!]
    m.1 = .ok [5, 8] ∧
    (doActionH noSed 30 .merge 5 8 [4, 3] m.2).1 = .err .mergeUnsupportedType ∧
    tree (doAction noSed o doc.label ms) = some (dc (mp [sc c!"k", al])) := by
  decide +kernel

end Yot
