import Verif.Spec.Local
import Verif.Props.FromFile
import Verif.Props.Again
/-
C89: what becomes of a file does not depend on the other files.
-/
namespace Yot
open Spec

theorem entriesFor_append {O D : Type} (p : Str) (xs ys : List (Entry O D)) : entriesFor p (xs ++ ys) = entriesFor p xs ++ entriesFor p ys := by
  simp [entriesFor]

theorem sameFor_listed {p : Str} {T T' : Task} {P P' : Setup} (h : SameFor p T T' P P') :
    entriesFor p (T'.listed P') = entriesFor p (T.listed P) := by
  unfold Task.listed
  rw [entriesFor_append, entriesFor_append, h.entries, h.commandLine]

theorem mem_firsts_iff (x : Str) (xs : List Str) : x ∈ firsts xs ↔ x ∈ xs := by
  induction xs with
  | nil => simp [firsts]
  | cons y ys ih =>
    simp only [firsts, List.mem_cons, List.mem_filter, ih, decide_eq_true_eq]
    by_cases h : x = y <;> simp [h]

theorem mem_inputs_iff (T : Task) (P : Setup) (p : Str) : p ∈ T.inputs P ↔ entriesFor p (T.listed P) ≠ [] := by
  unfold Task.inputs entriesFor
  rw [mem_firsts_iff, List.mem_map]
  constructor
  · rintro ⟨y, hy, e⟩ h
    have := List.filter_eq_nil_iff.1 h y hy
    simp [e] at this
  · intro h
    obtain ⟨y, hy⟩ := List.exists_mem_of_ne_nil _ h
    rw [List.mem_filter] at hy
    exact ⟨y, hy.1, by simpa using hy.2⟩

theorem gets_undisturbed {T : Task} {P : Setup} {p : Str} (h : Undisturbed T P p) (hp : p ∈ T.inputs P) : T.gets P p = T.own P p := by
  rcases h with h | h
  · exact (C65_own_overlays T P).2 h p hp
  · unfold Task.gets
    rw [h, received_none]

/-- **C89** Whether an input is one, what it holds and what overlays reach each of its documents
in which order is the same in two runs that agree on what concerns it, whatever else they
process. -/
theorem sameFor_work {p : Str} {T T' : Task} {P P' : Setup} (h : SameFor p T T' P P') (hu : Undisturbed T P p) (hp : p ∈ T.inputs P) :
    p ∈ T'.inputs P' ∧ T'.contents P' p = T.contents P p ∧ ∀ i, T'.overlaysOn P' p i = T.overlaysOn P p i := by
  have hl := sameFor_listed h
  have hp' : p ∈ T'.inputs P' := by
    rw [mem_inputs_iff] at hp ⊢
    rwa [hl]
  have hown : T'.own P' p = T.own P p := by unfold Task.own; rw [hl]
  have hu' : Undisturbed T' P' p := by
    unfold Undisturbed at hu ⊢
    rw [h.cli, hown]
    exact hu
  refine ⟨hp', ?_, fun i => ?_⟩
  · unfold Task.contents documentsOf
    rw [h.entries, h.text.1, h.text.2, h.settings.2.2.2.2]
  · unfold Task.overlaysOn
    rw [gets_undisturbed hu hp, gets_undisturbed hu' hp', hown, h.common, h.cli, hl]

/-- **C89** What becomes of an input is the same in two runs that agree on what concerns it,
whatever other files they process: it has the same result, or none in both.
Partial: not if there is an overlay on the command line and the input has overlays of its own,
see `C89_command_line_counterexample`. -/
theorem C89_result_partial (p : Str) (T T' : Task) (P P' : Setup) (h : SameFor p T T' P P') (hu : Undisturbed T P p)
    (hp : p ∈ T.inputs P) (docs : List Node) : T'.FileResult P' p docs ↔ T.FileResult P p docs := by
  obtain ⟨_, hc, ho⟩ := sameFor_work h hu hp
  unfold Task.FileResult
  rw [hc, h.settings.1, h.settings.2.1]
  simp only [ho]

/-- **C89** Whole runs: two instructions files with flags that agree on what concerns the input
`p`.  After success of both, under whatever schedules, the texts put out for `p` are the same.
Partial: as for `C89_result_partial`. -/
theorem C89_run_partial (p : Str) (D D' : Dec) (doc doc' : Node) (c c' : CliFlags) (P P' : Setup) (T T' : Task)
    (hm : InMemory D doc c P) (hm' : InMemory D' doc' c' P')
    (hd : Describes D doc T.common T.files) (hd' : Describes D' doc' T'.common T'.files)
    (hf : FlagsDescribe D c T.cli) (hf' : FlagsDescribe D' c' T'.cli)
    (env : Environment P) (env' : Environment P') (hr : T.Readable P) (hr' : T'.Readable P')
    (h : SameFor p T T' P P') (hu : Undisturbed T P p) (hp : p ∈ T.inputs P)
    (hone : OnlyOne T P p) (hone' : OnlyOne T' P' p) :
    ∃ N, ∀ fuel, N ≤ fuel → ∃ files files', P.getInstructions fuel = .done files ∧ P'.getInstructions fuel = .done files' ∧
      ∀ s s', Reach (P.run files) s → Returned s none → Reach (P'.run files') s' → Returned s' none →
        ∀ t, (T.nameFor P p, t) ∈ s.log.map (fun o => (o.name, o.text)) ↔
             (T'.nameFor P' p, t) ∈ s'.log.map (fun o => (o.name, o.text)) := by
  obtain ⟨N, h1⟩ := C65_from_file D doc c P T hm hd hf env
  obtain ⟨N', h1'⟩ := C65_from_file D' doc' c' P' T' hm' hd' hf' env'
  refine ⟨max N N', fun fuel hfuel => ?_⟩
  obtain ⟨files, e1, run1⟩ := (h1 fuel (by omega)).1 hr
  obtain ⟨files', e1', run1'⟩ := (h1' fuel (by omega)).1 hr'
  refine ⟨files, files', e1, e1', fun s s' hs hret hs' hret' => ?_⟩
  obtain ⟨res, text, a1, a2⟩ := run1 s hs hret
  obtain ⟨res', text', a1', a2'⟩ := run1' s' hs' hret'
  obtain ⟨hp', _, _⟩ := sameFor_work h hu hp
  have key : ∀ (T : Task) (P : Setup) (text : Str → Option Str) (l : List (Str × Str)), OnlyOne T P p → p ∈ T.inputs P →
      l.Perm ((T.inputs P).filterMap (fun p => (text p).map (fun t => (T.nameFor P p, t)))) →
      ∀ t, (T.nameFor P p, t) ∈ l ↔ text p = some t := by
    intro T P text l ho hp hl t
    rw [hl.mem_iff, List.mem_filterMap]
    constructor
    · rintro ⟨q, hq, e⟩
      cases hx : text q with
      | none => rw [hx] at e; cases e
      | some u =>
        rw [hx] at e
        simp only [Option.map_some, Option.some.injEq, Prod.mk.injEq] at e
        have := ho q hq e.1
        subst this
        rw [hx, e.2]
    · intro e
      exact ⟨p, hp, by rw [e]; rfl⟩
  intro t
  rw [key T P text _ hone hp a2 t, key T' P' text' _ hone' hp' a2' t]
  have hres : res' p = res p :=
    fileResult_unique ((C89_result_partial p T T' P P' h hu hp _).1 (a1' p hp').1) (a1 p hp).1
  have e := (a1 p hp).2
  have e' := (a1' p hp').2
  rw [hres, h.settings.2.2.1, h.settings.2.2.2.1, e] at e'
  have e2 : text p = text' p := by injection e'
  rw [e2]

theorem expand_append {O D : Type} (fs : Fs) (dir : Str) (xs ys : List (Entry O D)) (p : Str)
    (h : entriesFor p (expand fs dir ys) = []) : entriesFor p (expand fs dir (xs ++ ys)) = entriesFor p (expand fs dir xs) := by
  unfold expand at *
  rw [entriesFor_append] at h
  rw [List.filter_append, List.filter_append, List.map_append, List.flatMap_append]
  simp only [entriesFor_append]
  rw [List.append_eq_nil_iff] at h
  rw [h.1, h.2, List.append_nil, List.append_nil]

/-- **C89** Adding entries for other files to the instructions file changes nothing for a file that was
there: it is the same input, and has the same result.
Partial: as for `C89_result_partial`. -/
theorem C89_add_partial (p : Str) (T : Task) (P : Setup) (more : List DFile)
    (hmore : ∀ y ∈ expand P.fs P.dir more, y.path ≠ p) (hu : Undisturbed T P p) (hp : p ∈ T.inputs P) :
    p ∈ ({ T with files := T.files ++ more } : Task).inputs P ∧
    ∀ docs, ({ T with files := T.files ++ more } : Task).FileResult P p docs ↔ T.FileResult P p docs := by
  have hnil : entriesFor p (expand P.fs P.dir more) = [] := by
    unfold entriesFor
    rw [List.filter_eq_nil_iff]
    intro y hy
    simp [hmore y hy]
  have h : SameFor p T { T with files := T.files ++ more } P P :=
    ⟨rfl, rfl, expand_append P.fs P.dir T.files more p hnil, rfl, ⟨rfl, rfl⟩, rfl, rfl, rfl, rfl, rfl⟩
  exact ⟨(sameFor_work h hu hp).1, C89_result_partial p T _ P P h hu hp⟩

/-! ### Limits -/

/-- Three common overlays, an overlay on the command line, and one own overlay for `x.yaml`. -/
def Ex.localTask : Task where
  common := List.replicate 3 (some (Ex.setting c!"k" c!"common"))
  files := [{ path := c!"x.yaml", overlays := [some (Ex.setting c!"k" c!"for x")] }]
  cli := some (Ex.setting c!"k" c!"cli")

/-- The same with an entry for `d/a.yaml` that has an overlay of its own. -/
def Ex.localMore : Task :=
  { Ex.localTask with files := Ex.localTask.files ++ [{ path := c!"d/a.yaml", overlays := [some (Ex.setting c!"k" c!"for a")] }] }

/-- The values of the overlays that reach a document. -/
def Ex.texts (l : List (Option DOverlay)) : List Str := l.map (fun o => (o.map (·.base.value.hd.value)).getD [])

/-- **C89** It is false with an overlay on the command line: adding an entry for another file, with an overlay
of its own, makes `x.yaml` get the other file's overlay instead of its own. -/
theorem C89_command_line_counterexample :
    c!"/w/x.yaml" ∈ Ex.localTask.inputs Ex.setup ∧
    (∀ y ∈ expand Ex.setup.fs Ex.setup.dir [({ path := c!"d/a.yaml", overlays := [some (Ex.setting c!"k" c!"for a")] } : DFile)], y.path ≠ c!"/w/x.yaml") ∧
    Ex.texts (Ex.localTask.overlaysOn Ex.setup c!"/w/x.yaml" 0) = [c!"common", c!"common", c!"common", c!"cli", c!"for x"] ∧
    Ex.texts (Ex.localMore.overlaysOn Ex.setup c!"/w/x.yaml" 0) = [c!"common", c!"common", c!"common", c!"cli", c!"for a"] := by
  refine ⟨?_, ?_, ?_, ?_⟩ <;> decide

/-- Two files below `d`. -/
def Ex.nameTask : Task where
  common := []
  files := [{ path := c!"d/a.yaml" }, { path := c!"d/s/b.yml" }]
  cli := none

/-- **C89** The place of the output is another matter: it does depend on the other files, through the directory
all inputs share (C39). -/
theorem C89_names_differ :
    Ex.nameTask.nameFor Ex.setup c!"/w/d/a.yaml" = c!"/o/a.yaml" ∧
    ({ Ex.nameTask with files := Ex.nameTask.files ++ [{ path := c!"x.yaml" }] } : Task).nameFor Ex.setup c!"/w/d/a.yaml" = c!"/o/d/a.yaml" := by
  constructor <;> decide

/-- The hypotheses of `C89_add_partial` and `C89_run_partial` are met. -/
example : Undisturbed Ex.nameTask Ex.setup c!"/w/d/a.yaml" ∧ c!"/w/d/a.yaml" ∈ Ex.nameTask.inputs Ex.setup ∧
    (∀ y ∈ expand Ex.setup.fs Ex.setup.dir [({ path := c!"x.yaml" } : DFile)], y.path ≠ c!"/w/d/a.yaml") ∧
    OnlyOne Ex.nameTask Ex.setup c!"/w/d/a.yaml" := by
  refine ⟨.inl rfl, ?_, ?_, ?_⟩
  · decide
  · decide
  · unfold OnlyOne; decide

end Yot
