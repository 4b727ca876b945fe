import Verif.Lemmas.Safety
import Verif.Props.Apply
import Verif.Model.File
/-
C33: applying overlays does not crash (a Go panic is the outcome `.panic`), and
keeps documents well formed.
-/
namespace Yot
open Spec Ex

theorem doAction_ne_panic (E : Sed) (o : Overlay) (ms : List Node) (hv : NoDocs o.value) (doc : Node)
    (hw : WellFormed doc) : doAction E o doc ms ≠ .panic := by
  unfold doAction
  by_cases hd : o.action = .delete
  · refine foldlM_ne_panic WellFormed _ ms ?_ ?_ doc hw
    · intro d hd' x _
      obtain ⟨n', h, _⟩ := deleteNode_wf x.hd.addr d hd'
      simp [doOne, hd, h]
    · intro d x d' hd' _ h
      obtain ⟨n', h1, h2⟩ := deleteNode_wf x.hd.addr d hd'
      simp only [doOne, hd, h1, Res.ok.injEq] at h
      exact h ▸ h2
  · refine foldlM_ne_panic (fun _ => True) _ ms ?_ (fun _ _ _ _ _ _ => trivial) doc trivial
    intro d _ x _
    unfold doOne
    split
    · rename_i h; exact absurd h hd
    · exact modifyAt_ne_panic _ _ (fun _ => by simp) _
    · exact modifyAt_ne_panic _ _ (fun _ => combine_ne_panic E _ _) _
    · exact modifyAt_ne_panic _ _ (fun _ => merge_ne_panic E _ hv _ _) _

theorem label_hd (n : Node) : n.label.hd = { n.hd with addr := 1 } := by
  obtain ⟨h, cs⟩ := n; rfl

theorem labelsFrom_length (cs : List Node) : ∀ k, (Node.labelsFrom k cs).1.length = cs.length := by
  induction cs with
  | nil => intro k; rfl
  | cons c cs ih => intro k; simp [Node.labelsFrom, ih]

theorem label_length (n : Node) : n.label.content.length = n.content.length := by
  obtain ⟨h, cs⟩ := n
  simp [Node.label, Node.labelFrom, labelsFrom_length]

theorem length_ne {a b : List Node} (h : a.length = b.length) : a = [] ↔ b = [] := by
  rw [← List.length_eq_zero_iff, ← List.length_eq_zero_iff, h]

theorem notEmptied_of (n m : Node) (h1 : m.hd.nilc = n.hd.nilc) (h2 : m.content.length = n.content.length)
    (h : NotEmptied n) : NotEmptied m := by
  unfold NotEmptied Node.contentIsNil at *
  have := length_ne h2
  simp only [Bool.and_eq_true, List.isEmpty_iff] at *
  rw [h1, Ne, this]
  exact h

theorem label_notEmptied (n : Node) : NotEmptied n → NotEmptied n.label :=
  notEmptied_of n n.label (by rw [label_hd]) (label_length n)

theorem paths_pathTree (ps : List Str) (ns : List Node) (h : newPaths ps = .ok ns) :
    ns.length = ps.length ∧ ∀ n ∈ ns, PathTree n := by
  have := mapM_forall₂ _ _ _ h
  refine ⟨this.length_eq.symm, ?_⟩
  clear h
  induction this with
  | nil => simp
  | cons h1 h2 ih =>
    intro n hn
    rcases List.mem_cons.1 hn with rfl | hn
    · exact pathTree_of_built (buildPath_shape _ _ h1)
    · exact ih n hn

/-- The steps of an injection that gets as far as building its paths. -/
theorem doInjectPath_steps (E : Sed) (o : Overlay) (ip : List Query) (doc : Node) (hne : ip ≠ []) (hr : NotEmptied doc) :
    (∃ e, doInjectPath E o ip doc = .err e) ∨
    ∃ y d1, PathTree y ∧ mergeNode E doc y = .ok d1 ∧ NotEmptied d1 ∧
      doInjectPath E o ip doc = replaceAllAt E o.value d1.label (findAll ip d1.label) := by
  unfold doInjectPath
  cases hp : newPaths (ip.map Query.str) with
  | err e => exact .inl ⟨e, rfl⟩
  | panic => exact absurd hp (newPaths_ne_panic _)
  | ok bps =>
    obtain ⟨hlen, hpt⟩ := paths_pathTree _ _ hp
    have hne' : bps ≠ [] := by
      intro h; subst h
      simp only [List.length_nil, List.length_map] at hlen
      exact hne (List.length_eq_zero_iff.1 hlen.symm)
    obtain ⟨y, hy, hpy⟩ := buildPaths_ok E bps hne' hpt
    obtain ⟨d1, h1, h2, _⟩ := merge_pathTree E doc y hr hpy
    refine .inr ⟨y, d1, hpy, h1, h2, ?_⟩
    simp only [Res.bind_ok, hy, h1]

theorem replaceAllAt_ne_panic (E : Sed) (v root : Node) (ms : List Node) : replaceAllAt E v root ms ≠ .panic := by
  unfold replaceAllAt
  exact foldlM_ne_panic (fun _ => True) _ ms (fun d _ x _ => modifyAt_ne_panic _ _ (fun _ => by simp) _)
    (fun _ _ _ _ _ _ => trivial) root trivial

/-- An overlay that, if it injects, names a place to inject at. -/
def NamesPlace (dflt : Str) (o : Overlay) : Prop :=
  Injects dflt o.onMissing → o.query ≠ [] ∧ o.onMissing.injectPath ≠ some []

/-- How `apply` ends, case by case. -/
theorem apply_cases (E : Sed) (dflt : Str) (o : Overlay) (doc : Node) :
    apply E dflt o doc = .ok doc ∨
    (findAll o.query doc ≠ [] ∧ apply E dflt o doc = doAction E o doc (findAll o.query doc)) ∨
    (Injects dflt o.onMissing ∧ ((∃ e, apply E dflt o doc = .err e) ∨
      apply E dflt o doc = doInjectPath E o o.query doc ∨
      ∃ ip, o.onMissing.injectPath = some ip ∧ apply E dflt o doc = doInjectPath E o ip doc)) := by
  unfold apply
  split
  · exact .inl rfl
  · dsimp only
    split
    · unfold onMissing
      split
      · rename_i hi
        have hI : Injects dflt o.onMissing := (resolve_inject_iff _ _).1 hi
        unfold handleInjectPath
        split
        · split
          · exact .inl rfl
          · rename_i ip h; exact .inr (.inr ⟨hI, .inr (.inr ⟨ip, h, rfl⟩)⟩)
        · rename_i e _ _; exact .inr (.inr ⟨hI, .inl ⟨e, rfl⟩⟩)
        · rename_i h; exact absurd h (newPaths_ne_panic _)
        · exact .inr (.inr ⟨hI, .inr (.inl rfl)⟩)
      · exact .inl rfl
    · rename_i h; exact .inr (.inl ⟨by simpa using h, rfl⟩)

/-- C33, for one overlay: no crash, if the document's root has not been deleted
before and an injecting overlay names a place to inject at. -/
theorem C33_no_crash_partial (E : Sed) (dflt : Str) (o : Overlay) (doc : Node) (hw : WellFormed doc)
    (hr : NotEmptied doc) (hv : NoDocs o.value) (hi : NamesPlace dflt o) : apply E dflt o doc ≠ .panic := by
  have inj : ∀ ip, ip ≠ [] → doInjectPath E o ip doc ≠ .panic := by
    intro ip hne
    rcases doInjectPath_steps E o ip doc hne hr with ⟨e, h⟩ | ⟨_, d1, _, _, _, h⟩
    · rw [h]; simp
    · rw [h]; exact replaceAllAt_ne_panic _ _ _ _
  rcases apply_cases E dflt o doc with h | ⟨_, h⟩ | ⟨hI, ⟨e, h⟩ | h | ⟨ip, hip, h⟩⟩ <;> rw [h]
  · simp
  · exact doAction_ne_panic E o _ hv doc hw
  · simp
  · exact inj _ (hi hI).1
  · exact inj _ (by rintro rfl; exact (hi hI).2 hip)

/-- C33, for an overlay that does not inject: no crash on any well-formed document. -/
theorem C33_no_inject_no_crash (E : Sed) (dflt : Str) (o : Overlay) (doc : Node) (hw : WellFormed doc)
    (hv : NoDocs o.value) (hi : ¬ Injects dflt o.onMissing) : apply E dflt o doc ≠ .panic := by
  rcases apply_cases E dflt o doc with h | ⟨_, h⟩ | ⟨hI, _⟩
  · rw [h]; simp
  · rw [h]; exact doAction_ne_panic E o _ hv doc hw
  · exact absurd hI hi

theorem replaceAllAt_wf (E : Sed) (v root d' : Node) (ms : List Node) (hv : WellFormed v) (hr : WellFormed root)
    (h : replaceAllAt E v root ms = .ok d') : WellFormed d' := by
  unfold replaceAllAt at h
  exact foldlM_wf _ (fun d x d' hd h => modifyAt_wf _ _ (fun x y _ hxy => by
    simp only [Res.ok.injEq] at hxy; exact hxy ▸ replaceNode_wf E x v hv) d d' hd h) ms root d' hr h

theorem doInjectPath_wf (E : Sed) (o : Overlay) (ip : List Query) (doc doc' : Node) (hw : WellFormed doc)
    (hv : WellFormed o.value) (h : doInjectPath E o ip doc = .ok doc') : WellFormed doc' := by
  unfold doInjectPath at h
  simp only [Res.bind_eq_ok] at h
  obtain ⟨bps, hp, h⟩ := h
  split at h
  · rename_i y hy
    simp only [Res.bind_eq_ok] at h
    obtain ⟨d1, h1, h2⟩ := h
    have hpt := (paths_pathTree _ _ hp).2
    have hyw : WellFormed y := by
      by_cases hne : bps = []
      · subst hne; simp [buildPaths, mergeNodes] at hy
      · obtain ⟨y', hy', hpy⟩ := buildPaths_ok E bps hne hpt
        rw [hy, Res.ok.injEq] at hy'
        exact hy' ▸ hpy.1
    exact replaceAllAt_wf E _ _ _ _ hv (label_wf _ (merge_wf E y hyw doc d1 [] hw h1)) h2
  · simp at h

/-- C33 (and C12, C26): whatever an overlay does, the document stays well formed:
keys stay paired with values, scalars have no children. -/
theorem C33_keeps_well_formed (E : Sed) (dflt : Str) (o : Overlay) (doc doc' : Node) (hw : WellFormed doc)
    (hv : WellFormed o.value) (h : apply E dflt o doc = .ok doc') : WellFormed doc' := by
  rcases apply_cases E dflt o doc with h1 | ⟨_, h1⟩ | ⟨_, ⟨e, h1⟩ | h1 | ⟨ip, _, h1⟩⟩ <;> rw [h1] at h
  · simp only [Res.ok.injEq] at h; exact h ▸ hw
  · unfold doAction at h
    exact foldlM_wf _ (fun d x d' hd h => doOne_wf E o _ d d' hv hd h) _ doc doc' hw h
  · simp at h
  · exact doInjectPath_wf E o _ doc doc' hw hv h
  · exact doInjectPath_wf E o _ doc doc' hw hv h

/-! ### Histories -/

/-- Overlays one after the other on one document. -/
def applyAll (E : Sed) (dflt : Str) (os : List Overlay) (doc : Node) : Res Err Node :=
  os.foldlM (fun d o => applyJob E dflt o d) doc

/-- C33, for histories without inject: no crash, whatever is deleted. -/
theorem C33_history_without_inject (E : Sed) (dflt : Str) (os : List Overlay) (doc : Node) (hw : WellFormed doc)
    (ho : ∀ o ∈ os, WellFormed o.value ∧ NoDocs o.value ∧ ¬ Injects dflt o.onMissing) :
    applyAll E dflt os doc ≠ .panic := by
  unfold applyAll applyJob
  exact foldlM_ne_panic WellFormed _ os
    (fun d hd o hm => C33_no_inject_no_crash E dflt o d.label (label_wf d hd) (ho o hm).2.1 (ho o hm).2.2)
    (fun d o d' hd hm h => C33_keeps_well_formed E dflt o d.label d' (label_wf d hd) (ho o hm).1 h) doc hw

/-- The queries never match the document itself, only nodes inside it. -/
def OnlyInside (qs : List Query) : Prop := ∀ q ∈ qs, ∀ d m, d.addrs.Nodup → m ∈ q.find d → m.hd.addr ≠ d.hd.addr

theorem modifyAt_notEmptied (a : Nat) (f : Node → Res Err Node) (d d' : Node) (ha : a ≠ d.hd.addr) (hd : NotEmptied d)
    (h : modifyAt a f d = .ok d') : NotEmptied d' ∧ d'.hd.addr = d.hd.addr := by
  rcases modifyAt_cases h with ⟨h1, _⟩ | ⟨_, h1, h2⟩
  · exact absurd h1.symm ha
  · exact ⟨notEmptied_of d d' (by rw [h1]) h2.length_eq.symm hd, by rw [h1]⟩

theorem foldlM_modify_notEmptied (f : Node → Node → Res Err Node) (ms : List Node) : ∀ d d',
    (∀ m ∈ ms, m.hd.addr ≠ d.hd.addr) → NotEmptied d →
    ms.foldlM (fun r n => modifyAt n.hd.addr (f n) r) d = .ok d' → NotEmptied d' := by
  induction ms with
  | nil => intro d d' _ hd h; simp at h; exact h ▸ hd
  | cons m ms ih =>
    intro d d' hm hd h
    simp only [List.foldlM_cons, Res.bind_eq_ok] at h
    obtain ⟨d1, h1, h2⟩ := h
    obtain ⟨h3, h4⟩ := modifyAt_notEmptied _ _ d d1 (hm m (by simp)) hd h1
    exact ih d1 d' (fun x hx => by rw [h4]; exact hm x (by simp [hx])) h3 h2

theorem findAll_inside (qs : List Query) (h : OnlyInside qs) (d : Node) (hd : d.addrs.Nodup) :
    ∀ m ∈ findAll qs d, m.hd.addr ≠ d.hd.addr := by
  intro m hm
  unfold findAll at hm
  split at hm
  · simp at hm
  · simp only [List.mem_flatMap] at hm
    obtain ⟨q, hq, hm⟩ := hm
    exact h q hq d m hd hm

theorem applyJob_notEmptied (E : Sed) (dflt : Str) (o : Overlay) (doc doc' : Node) (hd : NotEmptied doc)
    (ha : o.action ≠ .delete) (hq : OnlyInside o.query) (hip : ∀ ip, o.onMissing.injectPath = some ip → OnlyInside ip)
    (hn : NamesPlace dflt o) (h : applyJob E dflt o doc = .ok doc') : NotEmptied doc' := by
  unfold applyJob at h
  have hl := label_notEmptied doc hd
  have hnd := label_nodup doc
  generalize doc.label = dl at h hl hnd
  have inj : ∀ ip, ip ≠ [] → OnlyInside ip → doInjectPath E o ip dl = .ok doc' → NotEmptied doc' := by
    intro ip hne hin h
    rcases doInjectPath_steps E o ip dl hne hl with ⟨e, h1⟩ | ⟨_, d1, _, _, h2, h1⟩
    · rw [h1] at h; simp at h
    · rw [h1] at h
      unfold replaceAllAt at h
      exact foldlM_modify_notEmptied (fun _ x => .ok (replaceNode E x o.value)) _ d1.label doc'
        (findAll_inside ip hin _ (label_nodup d1)) (label_notEmptied d1 h2) h
  rcases apply_cases E dflt o dl with h1 | ⟨_, h1⟩ | ⟨hI, ⟨e, h1⟩ | h1 | ⟨ip, hs, h1⟩⟩ <;> rw [h1] at h
  · simp only [Res.ok.injEq] at h; exact h ▸ hl
  · have hin := findAll_inside o.query hq dl hnd
    unfold doAction doOne at h
    split at h
    · contradiction
    · exact foldlM_modify_notEmptied (fun _ n => .ok (replaceNode E n o.value)) _ dl doc' hin hl h
    · exact foldlM_modify_notEmptied (fun _ n => combineNode E n o.value) _ dl doc' hin hl h
    · exact foldlM_modify_notEmptied (fun _ n => mergeNode E n o.value) _ dl doc' hin hl h
  · simp at h
  · exact inj _ (hn hI).1 hq h
  · exact inj ip (by rintro rfl; exact (hn hI).2 hs) (hip ip hs) h

/-- C33, for histories without delete: no crash, if every injecting overlay names a
place and no query matches the document node itself. -/
theorem C33_history_without_delete (E : Sed) (dflt : Str) (os : List Overlay) (doc : Node) (hw : WellFormed doc)
    (hr : NotEmptied doc)
    (ho : ∀ o ∈ os, WellFormed o.value ∧ NoDocs o.value ∧ o.action ≠ .delete ∧ OnlyInside o.query ∧
      (∀ ip, o.onMissing.injectPath = some ip → OnlyInside ip) ∧ NamesPlace dflt o) :
    applyAll E dflt os doc ≠ .panic := by
  unfold applyAll
  refine foldlM_ne_panic (fun d => WellFormed d ∧ NotEmptied d) _ os ?_ ?_ doc ⟨hw, hr⟩
  · intro d hd o hm
    exact C33_no_crash_partial E dflt o d.label (label_wf d hd.1) (label_notEmptied d hd.2) (ho o hm).2.1 (ho o hm).2.2.2.2.2
  · intro d o d' hd hm h
    obtain ⟨h1, _, h3, h4, h5, h6⟩ := ho o hm
    exact ⟨C33_keeps_well_formed E dflt o d.label d' (label_wf d hd.1) h1 h,
      applyJob_notEmptied E dflt o d d' hd.2 h3 h4 h5 h6 h⟩

/-- An overlay without query, with inject. -/
def Ex.injectNowhere : Overlay where
  value := sc c!"x"
  onMissing := ⟨.inject, none⟩

/-- An overlay with a query that is not a plain path and an empty list as
injectPath. -/
def Ex.injectEmptyList : Overlay where
  query := [⟨c!"a.*", fun _ => []⟩]
  value := sc c!"x"
  onMissing := ⟨.inject, some []⟩

/-- `$`, the root of the document. -/
def Ex.rootQuery : Query := ⟨c!"$", fun d => d.content.take 1⟩

/-- Deletes the document's root. -/
def Ex.deleteRoot : Overlay where
  query := [rootQuery]
  action := .delete

/-- Injects a key. -/
def Ex.injectKey : Overlay where
  query := [keyQuery c!"z"]
  value := sc c!"x"
  onMissing := ⟨.inject, none⟩

/-- C33 is false in general: inject without any query crashes; so does an empty
injectPath; so does injecting after the root was deleted. -/
theorem C33_crashes :
    apply noSed c!"" injectNowhere (dc (mp [])).label = .panic ∧
    apply noSed c!"" injectEmptyList (dc (mp [])).label = .panic ∧
    applyAll noSed c!"" [deleteRoot, injectKey] (dc (mp [sc c!"a", sc c!"1"])) = .panic := by decide

/-- The hypotheses are met, and the overlay is not trivial. -/
example : NamesPlace c!"" injectKey ∧ NoDocs injectKey.value ∧ WellFormed (dc (mp [sc c!"a", sc c!"1"])) ∧
    NotEmptied (dc (mp [sc c!"a", sc c!"1"])) ∧
    tree (applyAll noSed c!"" [injectKey, injectKey] (dc (mp [sc c!"a", sc c!"1"]))) =
      some (dc (mp [sc c!"a", sc c!"1", .mk { kind := .scalar, value := c!"z" } [], sc c!"x"])) := by
  refine ⟨?_, ?_, ?_, ?_, by decide⟩
  · intro _; simp [injectKey]
  · simp [NoDocs, injectKey, sc, AllNodes, AllNodess]
  · simp [Ex.dc, Ex.mp, Ex.sc, WellFormed, WellFormeds, Shaped]
  · right; simp [Ex.dc]

/-- Queries for entries of the root match inside only. -/
example (k : Str) : OnlyInside [keyQuery k] := by
  intro q hq d m hnd hm
  simp only [List.mem_singleton] at hq
  subst hq
  simp only [keyQuery, List.mem_flatMap, List.mem_filterMap] at hm
  obtain ⟨r, hr, e, he, hm⟩ := hm
  split at hm
  · simp only [Option.some.injEq] at hm
    subst hm
    have hmr : e.2 ∈ r.content := (pairs_mem he).2
    obtain ⟨h, cs⟩ := d
    simp only [Node.addrs, List.nodup_cons] at hnd
    intro hc
    apply hnd.1
    rw [Node.hd_mk] at hc
    rw [← hc]
    refine (addrs_sublist hr).subset ?_
    obtain ⟨h', cs'⟩ := r
    simp only [Node.addrs, List.mem_cons]
    exact .inr ((addrs_sublist hmr).subset (mem_addrs_self _))
  · simp at hm

end Yot
