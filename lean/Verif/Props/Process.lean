import Verif.Spec.Process
import Verif.Spec.Config
import Verif.Props.Config
import Verif.Props.FromFile
/-
C66: the exit status.  C67: the files after a run, and at any moment of it.
-/
namespace Yot
open Spec

theorem isLevel_iff (t : Str) : isLevel t = true ↔ NamesLevel t := by
  unfold isLevel NamesLevel
  rw [decide_eq_true_eq]
  have key : ∀ w ∈ [c!"critical", c!"error", c!"warning", c!"notice", c!"info", c!"debug"], (t.map Char.toLower = w ↔ AnyCase t w) := by
    intro w hw
    refine map_toLower_iff t w ?_
    have : ∀ w ∈ [c!"critical", c!"error", c!"warning", c!"notice", c!"info", c!"debug"], ∀ l ∈ w, 97 ≤ l.toNat ∧ l.toNat ≤ 122 := by decide
    exact this w hw
  constructor
  · intro h; exact ⟨_, h, (key _ h).1 rfl⟩
  · rintro ⟨w, hw, h⟩; rw [(key w hw).2 h]; exact hw

theorem startFails_none (M : Machine) : M.startFails = none ↔ StartsWell M := by
  unfold Machine.startFails
  constructor
  · intro h
    by_cases h1 : (!M.flagsParse || (setQueryFlags M.D M.cli.queries []).isNone || M.cli.readAction.isNone) = true
    · rw [if_pos h1] at h; cases h
    rw [if_neg h1] at h
    by_cases h2 : (initConfig M.start).isNone = true
    · rw [if_pos h2] at h; cases h
    rw [if_neg h2] at h
    by_cases h3 : (!isLevel (M.text c!"logLevel")) = true
    · rw [if_pos h3] at h; cases h
    simp only [Bool.or_eq_true, Bool.not_eq_true', not_or, Option.isNone_iff_eq_none, Bool.not_eq_false] at h1 h2 h3
    refine ⟨h1.1.1, Option.ne_none_iff_exists'.1 h1.1.2, Option.ne_none_iff_exists'.1 h1.2, ?_, (isLevel_iff _).1 h3⟩
    intro hc
    exact h2 ((C46_config_file M.start).2 hc)
  · rintro ⟨h1, ⟨qs, h2⟩, ⟨a, h3⟩, h4, h5⟩
    have h4 : initConfig M.start ≠ none := fun hc => h4 ((C46_config_file M.start).1 hc)
    obtain ⟨v, hv⟩ := Option.ne_none_iff_exists'.1 h4
    simp [h1, h2, h3, hv, (isLevel_iff _).2 h5]

theorem startFails_ne_success (M : Machine) : M.startFails ≠ some .success := by
  unfold Machine.startFails
  split
  · simp
  · split
    · simp
    · split <;> simp

theorem valueNodes_iff (M : Machine) : ∀ fs ns, M.valueNodes fs = some ns ↔
    List.Forall₂ (fun f n => ∃ x, M.stream f = some x ∧ M.parse x = some n) fs ns := by
  intro fs
  induction fs with
  | nil =>
    intro ns
    simp only [Machine.valueNodes, Option.some.injEq, List.forall₂_nil_left_iff]
    exact eq_comm
  | cons f fs ih =>
    intro ns
    simp only [Machine.valueNodes]
    constructor
    · intro h
      split at h
      · rename_i n ns' h1 h2
        cases h
        refine .cons ?_ ((ih ns').1 h2)
        simpa [Option.bind_eq_some_iff] using h1
      · cases h
    · intro h
      cases h with
      | @cons _ n _ ns' h1 h2 =>
        have h1 : (M.stream f).bind M.parse = some n := by simpa [Option.bind_eq_some_iff] using h1
        rw [h1, (ih ns').2 h2]

theorem instructionsText_iff (M : Machine) (t : Str) : M.instructionsText = .ok t ↔ InstructionsTextIs M t := by
  unfold Machine.instructionsText InstructionsTextIs
  cases hv : M.valueFiles with
  | none =>
    cases hs : M.stream M.instructionsFile <;> simp
  | some fs =>
    simp only [reduceCtorEq, false_and, Option.some.injEq, false_or]
    constructor
    · intro h
      split at h
      · cases h
      · rename_i ns hns
        split at h
        · cases h
        · cases h
        · rename_i v hval
          split at h
          · rename_i t' ht
            cases h
            obtain ⟨file, hf, hr⟩ := Option.bind_eq_some_iff.1 ht
            unfold Templates.render at hr
            split at hr
            · rename_i hc
              simp only [Bool.and_eq_true, List.all_eq_true, decide_eq_true_eq] at hc
              exact ⟨fs, ns, v, file, rfl, (valueNodes_iff M fs ns).1 hns, hval, hf, hc.1, hc.2, hr⟩
            · cases hr
          · cases h
    · rintro ⟨_, ns, v, file, rfl, hns, hval, hf, h1, h2, h3⟩
      rw [(valueNodes_iff M _ ns).2 hns]
      simp only [hval, hf, Option.bind_some, Templates.render, h1, Bool.true_and, List.all_eq_true, decide_eq_true_eq]
      rw [if_pos h2, h3]

theorem instructions_iff (M : Machine) (i : DInstr) : M.instructions = .ok i ↔ InstructionsOf M i := by
  unfold Machine.instructions InstructionsOf
  by_cases h1 : M.instructionsFile = []
  · rw [if_pos h1]
    simp only [h1, true_and, ne_eq, not_true_eq_false, false_and, or_false, Res.ok.injEq]
    exact eq_comm
  · rw [if_neg h1]
    simp only [h1, false_and, ne_eq, not_false_eq_true, true_and, false_or]
    constructor
    · intro hi
      split at hi
      · cases hi
      · cases hi
      · rename_i t ht
        cases hp : M.parse t with
        | none => rw [hp] at hi; cases hi
        | some doc =>
          rw [hp] at hi
          split at hi
          · rename_i i' hd
            cases hi
            exact ⟨t, doc, (instructionsText_iff M t).1 ht, hp, (decodeInstructions_iff M.D doc i).1 hd⟩
          · cases hi
    · rintro ⟨t, doc, h2, h3, h4⟩
      rw [(instructionsText_iff M t).2 h2]
      simp only [h3, (decodeInstructions_iff M.D doc i).2 h4]

theorem asks_unique {M : Machine} {T T' : Task} (h : Asks M T) (h' : Asks M T') : T = T' := by
  have h1 := (instructions_iff M _).2 h.1
  rw [(instructions_iff M _).2 h'.1] at h1
  obtain ⟨x, h2, h3⟩ := flagsDescribe_iff.1 h.2
  obtain ⟨x', h4, h5⟩ := flagsDescribe_iff.1 h'.2
  rw [h2] at h4
  cases h4
  simp only [Res.ok.injEq, DInstr.mk.injEq] at h1
  have hf := (List.map_injective_iff.2 (fun _ _ h => Option.some.inj h)) h1.2
  obtain ⟨a, b, c⟩ := T
  obtain ⟨a', b', c'⟩ := T'
  simp only at h1 hf h3 h5
  rw [h3, h5, hf, h1.1]

theorem env_setup {M : Machine} (env : Environment (settingsOf M)) (obj : Nat → Option DOverlay) (docObj : Nat → Option DocObj) (instr : Instr)
    (adHoc : Option Nat) : Environment (M.setup obj docObj instr adHoc) :=
  ⟨env.dir, env.fs, env.grow⟩

/-- A run under way: what is in memory, the files, and the state. -/
structure Going (M : Machine) (T : Task) (s : State) where
  i : DInstr
  obj : Nat → Option DOverlay
  docObj : Nat → Option DocObj
  instr : Instr
  adHoc : Option Nat
  files : List (Entry (List Nat) (List (Option DocObj)))
  read : M.instructions = .ok i
  loaded : Loaded i (M.setup obj docObj instr adHoc)
  flags : FlagsLoaded M.D M.cli (M.setup obj docObj instr adHoc)
  stands : Stands (M.setup obj docObj instr adHoc) T
  got : ∃ N, ∀ fuel, N ≤ fuel → (M.setup obj docObj instr adHoc).getInstructions fuel = .done files
  reach : Reach ((M.setup obj docObj instr adHoc).run files) s

theorem Going.pick {M : Machine} {T : Task} {s : State} (g : Going M T s)
    {Q : List (Entry (List Nat) (List (Option DocObj))) → Prop}
    (h : ∃ N, ∀ fuel, N ≤ fuel → ∃ files, (M.setup g.obj g.docObj g.instr g.adHoc).getInstructions fuel = .done files ∧ Q files) :
    Q g.files := by
  obtain ⟨N, hN⟩ := h
  obtain ⟨N', hN'⟩ := g.got
  obtain ⟨files, h1, h2⟩ := hN (max N N') (by omega)
  rw [hN' (max N N') (by omega)] at h1
  cases h1
  exact h2

/-- What has been loaded has been asked for. -/
theorem asked_of_loaded {M : Machine} {i : DInstr} {obj : Nat → Option DOverlay} {docObj : Nat → Option DocObj} {instr : Instr}
    {adHoc : Option Nat} (hi : M.instructions = .ok i) (hl : Loaded i (M.setup obj docObj instr adHoc))
    (hf : FlagsLoaded M.D M.cli (M.setup obj docObj instr adHoc)) : ∃ T, Asks M T := by
  have h1 := (instructions_iff M i).1 hi
  have h2 : ∃ cli, FlagsDescribe M.D M.cli cli := by
    rcases hf with ⟨h, _⟩ | ⟨qs, o, p, h, _⟩
    · exact ⟨_, flagsDescribe_iff.2 ⟨_, h, rfl⟩⟩
    · exact ⟨_, flagsDescribe_iff.2 ⟨_, h, rfl⟩⟩
  obtain ⟨cli, h2⟩ := h2
  refine ⟨⟨i.common, (given (M.setup obj docObj instr adHoc)).map (Entry.deref obj), cli⟩, ?_, h2⟩
  have h3 := hl.filesRead
  unfold AsksFiles
  rw [List.map_map]
  rw [show (some ∘ Entry.deref obj) = (fun e => some (Entry.deref (M.setup obj docObj instr adHoc).obj e)) from rfl, h3]
  exact h1

theorem going_of {M : Machine} {T : Task} (h : Asks M T) {i : DInstr} {obj : Nat → Option DOverlay} {docObj : Nat → Option DocObj} {instr : Instr}
    {adHoc : Option Nat} {files : List (Entry (List Nat) (List (Option DocObj)))} {s : State} (hi : M.instructions = .ok i)
    (hl : Loaded i (M.setup obj docObj instr adHoc)) (hf : FlagsLoaded M.D M.cli (M.setup obj docObj instr adHoc))
    (hg : ∃ N, ∀ fuel, N ≤ fuel → (M.setup obj docObj instr adHoc).getInstructions fuel = .done files)
    (hr : Reach ((M.setup obj docObj instr adHoc).run files) s) : Nonempty (Going M T s) := by
  have h1 := (instructions_iff M _).2 h.1
  rw [hi] at h1
  cases h1
  exact ⟨⟨_, obj, docObj, instr, adHoc, files, hi, hl, hf, loaded_stands hl hf h.2, hg, hr⟩⟩

/-- Which files are loaded decides whether they can be read. -/
theorem loaded_reads {M : Machine} {common : List (Option DOverlay)} {files : List DFile} (hm : Environment (settingsOf M))
    {obj : Nat → Option DOverlay} {docObj : Nat → Option DocObj} {instr : Instr} {adHoc : Option Nat}
    (hl : Loaded ⟨common, files.map some⟩ (M.setup obj docObj instr adHoc)) (cli : Option DOverlay) : ∃ N, ∀ fuel, N ≤ fuel →
    (Task.Readable ⟨common, files, cli⟩ (settingsOf M) → ∃ fs, (M.setup obj docObj instr adHoc).getInstructions fuel = .done fs) ∧
    (¬ Task.Readable ⟨common, files, cli⟩ (settingsOf M) → ¬ Task.Hangs ⟨common, files, cli⟩ (settingsOf M) →
      (M.setup obj docObj instr adHoc).getInstructions fuel = .err) ∧
    (Task.Hangs ⟨common, files, cli⟩ (settingsOf M) → (M.setup obj docObj instr adHoc).getInstructions fuel = .running) := by
  obtain ⟨N, hN⟩ := C55_inputs _ (sound_of hl (env_setup hm obj docObj instr adHoc))
  have hs : (given (M.setup obj docObj instr adHoc)).map (Entry.deref (M.setup obj docObj instr adHoc).obj) =
      (⟨common, files, cli⟩ : Task).files := loaded_files hl
  refine ⟨N, fun fuel hf => ⟨?_, ?_, ?_⟩⟩
  · intro hr
    obtain ⟨fs, h, _⟩ := (hN fuel hf).1 ((readable_deref hs).2 hr)
    exact ⟨fs, h⟩
  · intro hr hh
    exact (hN fuel hf).2.1 (fun h => hr ((readable_deref hs).1 h)) (fun h => hh ((hangs_deref hs).1 h))
  · intro hh
    exact (hN fuel hf).2.2 ((hangs_deref hs).2 hh)

theorem readable_of_done {M : Machine} {common : List (Option DOverlay)} {files : List DFile} (hm : Environment (settingsOf M))
    {obj : Nat → Option DOverlay} {docObj : Nat → Option DocObj} {instr : Instr} {adHoc : Option Nat}
    (hl : Loaded ⟨common, files.map some⟩ (M.setup obj docObj instr adHoc)) (cli : Option DOverlay)
    {fs : List (Entry (List Nat) (List (Option DocObj)))}
    (hg : ∃ N, ∀ fuel, N ≤ fuel → (M.setup obj docObj instr adHoc).getInstructions fuel = .done fs) :
    Task.Readable ⟨common, files, cli⟩ (settingsOf M) := by
  apply Classical.byContradiction
  intro hc
  obtain ⟨N, hN⟩ := loaded_reads hm hl cli
  obtain ⟨N', hN'⟩ := hg
  have hg := hN' (max N N') (by omega)
  by_cases hh : Task.Hangs ⟨common, files, cli⟩ (settingsOf M)
  · have := (hN (max N N') (by omega)).2.2 hh
    rw [hg] at this
    cases this
  · have := (hN (max N N') (by omega)).2.1 hc hh
    rw [hg] at this
    cases this

theorem Going.readable {M : Machine} {T : Task} {s : State} (g : Going M T s) (ha : Asks M T) (hm : Environment (settingsOf M)) :
    T.Readable (settingsOf M) := by
  have h1 := (instructions_iff M _).2 ha.1
  rw [g.read] at h1
  have h2 := g.loaded
  rw [Res.ok.inj h1] at h2
  exact readable_of_done hm h2 T.cli g.got

/-- The ways a process can end with such instructions. -/
theorem ends_cases_files {M : Machine} {common : List (Option DOverlay)} {files : List DFile} (ha : AsksFiles M common files)
    (hm : Environment (settingsOf M)) {e : Exit} {log : List Out} (h : M.Ends e log) :
    (M.startFails = some e ∧ log = []) ∨
    (M.startFails = none ∧ (¬ Task.Readable ⟨common, files, none⟩ (settingsOf M) ∧ ¬ Task.Hangs ⟨common, files, none⟩ (settingsOf M)) ∧
      e = .failure ∧ log = []) ∨
    (M.startFails = none ∧ Task.Readable ⟨common, files, none⟩ (settingsOf M) ∧ adHocOverlay M.D M.cli = none ∧ e = .failure ∧ log = []) ∨
    (M.startFails = none ∧ Task.Readable ⟨common, files, none⟩ (settingsOf M) ∧ ∃ cli, Asks M ⟨common, files, cli⟩ ∧
      ∃ s, Nonempty (Going M ⟨common, files, cli⟩ s) ∧ s.log = log ∧
      ((∃ r, Returned s r ∧ e = if r = none then .success else .failure) ∨ (s.crashed = true ∧ e = .crash))) := by
  have h1 := (instructions_iff M _).2 ha
  have asked : ∀ {obj docObj instr adHoc}, FlagsLoaded M.D M.cli (M.setup obj docObj instr adHoc) →
      ∃ cli, Asks M ⟨common, files, cli⟩ := by
    intro obj docObj instr adHoc hf
    rcases hf with ⟨h, _⟩ | ⟨qs, o, p, h, _⟩
    · exact ⟨_, ha, flagsDescribe_iff.2 ⟨_, h, rfl⟩⟩
    · exact ⟨_, ha, flagsDescribe_iff.2 ⟨_, h, rfl⟩⟩
  cases h with
  | start e h => exact .inl ⟨h, rfl⟩
  | instructionsFail _ h => rw [h1] at h; cases h
  | instructionsFailCrash _ _ _ h _ _ _ _ => rw [h1] at h; cases h
  | instructionsCrash _ h => rw [h1] at h; cases h
  | nullFile i _ hi hn _ =>
    rw [h1] at hi
    cases hi
    simp at hn
  | beforeNull i _ hi hn _ =>
    rw [h1] at hi
    cases hi
    simp at hn
  | badValue i obj docObj instr fs hs hi hl hg hb =>
    rw [h1] at hi
    cases hi
    exact .inr (.inr (.inl ⟨hs, readable_of_done hm hl none hg, hb, rfl, rfl⟩))
  | unreadable i obj docObj instr adHoc hs hi hl hg =>
    rw [h1] at hi
    cases hi
    obtain ⟨N, hN⟩ := loaded_reads hm hl none
    obtain ⟨N', hN'⟩ := hg
    have hg := hN' (max N N') (by omega)
    refine .inr (.inl ⟨hs, ⟨?_, ?_⟩, rfl, rfl⟩)
    · intro hr
      obtain ⟨files, h4⟩ := (hN (max N N') (by omega)).1 hr
      rw [hg] at h4
      cases h4
    · intro hh
      have := (hN (max N N') (by omega)).2.2 hh
      rw [hg] at this
      cases this
  | ran i obj docObj instr adHoc fs s r hs hi hl hf hg hr hmain =>
    obtain ⟨cli, hcli⟩ := asked hf
    obtain ⟨g⟩ := going_of hcli hi hl hf hg hr
    exact .inr (.inr (.inr ⟨hs, g.readable hcli hm, cli, hcli, s, ⟨g⟩, rfl, .inl ⟨r, hmain, rfl⟩⟩))
  | crashed i obj docObj instr adHoc fs s hs hi hl hf hg hr hc =>
    obtain ⟨cli, hcli⟩ := asked hf
    obtain ⟨g⟩ := going_of hcli hi hl hf hg hr
    exact .inr (.inr (.inr ⟨hs, g.readable hcli hm, cli, hcli, s, ⟨g⟩, rfl, .inr ⟨hc, rfl⟩⟩))

/-- The ways a process can end that is asked for a task. -/
theorem ends_cases {M : Machine} {T : Task} (ha : Asks M T) (hm : Environment (settingsOf M)) {e : Exit} {log : List Out} (h : M.Ends e log) :
    (M.startFails = some e ∧ log = []) ∨
    (M.startFails = none ∧ (¬ T.Readable (settingsOf M) ∧ ¬ T.Hangs (settingsOf M)) ∧ e = .failure ∧ log = []) ∨
    (M.startFails = none ∧ T.Readable (settingsOf M) ∧ ∃ s, Nonempty (Going M T s) ∧ s.log = log ∧
      ((∃ r, Returned s r ∧ e = if r = none then .success else .failure) ∨ (s.crashed = true ∧ e = .crash))) := by
  rcases ends_cases_files ha.1 hm h with h | h | ⟨_, _, h, _⟩ | ⟨h1, h2, cli, h3, h4⟩
  · exact .inl h
  · exact .inr (.inl h)
  · obtain ⟨x, hx, _⟩ := flagsDescribe_iff.1 ha.2
    rw [h] at hx
    cases hx
  · have := asks_unique h3 ha
    rw [this] at h4
    exact .inr (.inr ⟨h1, h2, h4⟩)

/-- **C66** Exit status 0 means that everything asked for has been done: the
process has started well, all files could be read, every file's overlays have been applied
and each non-empty result has been written, under its name, once. -/
theorem C66_success (M : Machine) (T : Task) (ha : Asks M T) (hm : Environment (settingsOf M)) (log : List Out)
    (h : M.Ends .success log) : StartsWell M ∧ T.Readable (settingsOf M) ∧
    ∃ text : Str → Option Str, (∀ p ∈ T.inputs (settingsOf M), Produces M T p (text p)) ∧
      (log.map (fun o => (o.name, o.text))).Perm
        ((T.inputs (settingsOf M)).filterMap (fun p => (text p).map (fun t => (T.nameFor (settingsOf M) p, t)))) := by
  rcases ends_cases ha hm h with ⟨h1, _⟩ | ⟨_, _, h1, _⟩ | ⟨h1, h2, s, ⟨g⟩, rfl, ⟨r, h3, h4⟩ | ⟨_, h4⟩⟩
  · exact absurd h1 (startFails_ne_success M)
  · cases h1
  · refine ⟨(startFails_none M).1 h1, h2, ?_⟩
    have hr : r = none := by
      cases r with
      | none => rfl
      | some e => simp at h4
    subst hr
    obtain ⟨N, hN⟩ := from_loaded g.loaded g.stands (env_setup hm _ _ _ _)
    have := g.pick (Q := fun files => ∀ s, Reach ((M.setup g.obj g.docObj g.instr g.adHoc).run files) s → Returned s none → _)
      ⟨N, fun fuel hf => (hN fuel hf).1 h2⟩ s g.reach h3
    obtain ⟨result, text, h5, h6⟩ := this
    exact ⟨text, fun p hp => ⟨result p, h5 p hp⟩, h6⟩
  · cases h4

/-- **C66** Whoever gets exit status 0 has asked for something definite: there is exactly
one task that the instructions and the flags describe. -/
theorem C66_success_asked (M : Machine) (log : List Out) (h : M.Ends .success log) :
    ∃ T, Asks M T ∧ ∀ T', Asks M T' → T' = T := by
  generalize he : Exit.success = e at h
  cases h with
  | start e h => exact absurd (he ▸ h) (startFails_ne_success M)
  | instructionsFail _ _ => cases he
  | instructionsFailCrash _ _ _ _ _ _ _ _ => cases he
  | instructionsCrash _ _ => cases he
  | nullFile i _ _ _ _ => cases he
  | beforeNull i _ _ _ _ => cases he
  | badValue i _ _ _ _ _ _ _ _ _ => cases he
  | unreadable i _ _ _ _ _ _ _ _ => cases he
  | crashed i _ _ _ _ _ s _ _ _ _ _ _ _ => cases he
  | ran i _ _ _ _ _ s r _ hi hl hf _ _ _ =>
    obtain ⟨T, hT⟩ := asked_of_loaded hi hl hf
    exact ⟨T, hT, fun T' h' => asks_unique h' hT⟩

/-- **C66** If the start fails, or no task is asked for -- the instructions file cannot be
read, its template cannot be executed, it is not YAML or not instructions (C59, C62), there
is a null under `yamlFiles`, the text of `--value` is no YAML --, the status is not 0 and
nothing at all has been written. -/
theorem C66_nothing_written (M : Machine) (h : ¬ StartsWell M ∨ ¬ ∃ T, Asks M T) (e : Exit) (log : List Out)
    (he : M.Ends e log) : e ≠ .success ∧ log = [] := by
  rw [← startFails_none] at h
  cases he with
  | start e h1 => exact ⟨fun hc => startFails_ne_success M (hc ▸ h1), rfl⟩
  | instructionsFail _ _ => exact ⟨by simp, rfl⟩
  | instructionsFailCrash _ _ _ _ _ _ _ _ => exact ⟨by simp, rfl⟩
  | instructionsCrash _ _ => exact ⟨by simp, rfl⟩
  | nullFile i _ _ _ _ => exact ⟨by simp, rfl⟩
  | beforeNull i _ _ _ _ => exact ⟨by simp, rfl⟩
  | badValue i _ _ _ _ _ _ _ _ _ => exact ⟨by simp, rfl⟩
  | unreadable i _ _ _ _ h1 h2 _ _ => exact ⟨by simp, rfl⟩
  | ran i _ _ _ _ _ s r h1 hi hl hf _ _ _ =>
    rcases h with h | h
    · exact absurd h1 h
    · exact absurd (asked_of_loaded hi hl hf) h
  | crashed i _ _ _ _ _ s h1 hi hl hf _ _ _ =>
    rcases h with h | h
    · exact absurd h1 h
    · exact absurd (asked_of_loaded hi hl hf) h

theorem nothing_written (M : Machine) (h : ¬ StartsWell M ∨ ∀ i, M.instructions ≠ .ok i) (e : Exit) (log : List Out)
    (he : M.Ends e log) : e ≠ .success ∧ log = [] := by
  refine C66_nothing_written M (h.imp id ?_) e log he
  rintro h ⟨T, hT⟩
  exact h _ ((instructions_iff M _).2 hT.1)

/-- **C66** In particular, if there is an instructions file that cannot be read (or whose
template cannot be executed), or that is not YAML or not instructions (C59, C62). -/
theorem C66_bad_instructions (M : Machine)
    (h : M.instructionsFile ≠ [] ∧ ¬ ∃ t doc i, InstructionsTextIs M t ∧ M.parse t = some doc ∧ InstructionsAre M.D doc i)
    (e : Exit) (log : List Out) (he : M.Ends e log) : e ≠ .success ∧ log = [] := by
  refine C66_nothing_written M (.inr ?_) e log he
  rintro ⟨T, ⟨hT, _⟩ | ⟨_, t, doc, h1, h2, h3⟩, _⟩
  · exact h.1 hT
  · exact h.2 ⟨t, doc, _, h1, h2, h3⟩

/-- **C66** And such instructions are reported as an error (the process does not crash) if merging
the values files does not crash (C33, C45) and they list no null under `yamlFiles` (C63). -/
theorem C66_refused_reported (M : Machine) (hs : StartsWell M)
    (h : M.instructionsFile ≠ [] ∧ ¬ ∃ t doc i, InstructionsTextIs M t ∧ M.parse t = some doc ∧ InstructionsAre M.D doc i)
    (hv : ∀ files nodes, M.valueFiles = some files →
      List.Forall₂ (fun f n => ∃ x, M.stream f = some x ∧ M.parse x = some n) files nodes → getValues M.sed nodes ≠ .panic)
    (hn : ∀ t doc, InstructionsTextIs M t → M.parse t = some doc → ¬ Machine.MayListNull doc)
    (e : Exit) (log : List Out) (he : M.Ends e log) : e = .failure ∧ log = [] := by
  rw [← startFails_none] at hs
  have hno : ∀ i, M.instructions ≠ .ok i := by
    intro i hi
    rcases (instructions_iff M i).1 hi with h1 | ⟨_, t, doc, h2, h3, h4⟩
    · exact h.1 h1.1
    · exact h.2 ⟨t, doc, i, h2, h3, h4⟩
  cases he with
  | start e h1 => rw [hs] at h1; cases h1
  | instructionsFail _ _ => exact ⟨rfl, rfl⟩
  | instructionsFailCrash t doc _ _ _ ht hd hm => exact absurd hm (hn t doc ((instructionsText_iff M t).1 ht) hd)
  | instructionsCrash _ hp =>
    exfalso
    unfold Machine.instructions at hp
    rw [if_neg h.1] at hp
    split at hp
    · cases hp
    · rename_i ht
      unfold Machine.instructionsText at ht
      split at ht
      · split at ht <;> cases ht
      · rename_i fs hfs
        split at ht
        · cases ht
        · rename_i ns hns
          split at ht
          · cases ht
          · rename_i hg
            exact hv fs ns hfs ((valueNodes_iff M fs ns).1 hns) hg
          · split at ht <;> cases ht
    · split at hp <;> cases hp
  | nullFile i _ hi _ _ => exact absurd hi (hno i)
  | beforeNull i _ hi _ _ => exact absurd hi (hno i)
  | badValue i _ _ _ _ _ hi _ _ _ => exact absurd hi (hno i)
  | unreadable i _ _ _ _ _ hi _ _ => exact absurd hi (hno i)
  | ran i _ _ _ _ _ s r _ hi _ _ _ _ _ => exact absurd hi (hno i)
  | crashed i _ _ _ _ _ s _ hi _ _ _ _ _ => exact absurd hi (hno i)

/-- **C66** The same if the text of `--value` is no YAML (and there is a `--query`). -/
theorem C66_bad_value (M : Machine) (hq : M.cli.queries ≠ []) (hv : M.cli.value = .bad) (e : Exit) (log : List Out)
    (he : M.Ends e log) : e ≠ .success ∧ log = [] := by
  refine C66_nothing_written M (.inr ?_) e log he
  rintro ⟨T, _, a, qs, _, h1, ⟨h2, _⟩ | ⟨_, v, h2, _⟩⟩
  · rw [h2, List.forall₂_nil_right_iff] at h1
    exact hq h1
  · rw [hv] at h2
    simp at h2

/-- **C66** (The code crashes here.) A null under `yamlFiles`: the process ends with nothing
written; it crashes if the entries before the null can be processed, and reports an error
if not. -/
theorem C66_null_file (M : Machine) (hs : StartsWell M) (common : List (Option DOverlay)) (before : List DFile)
    (rest : List (Option DFile)) (hi : InstructionsOf M ⟨common, before.map some ++ none :: rest⟩) :
    (∃ e log, M.Ends e log) ∧
    ∀ e log, M.Ends e log → log = [] ∧
      e = if ∀ y ∈ before, Processable M.fs M.dir y then .crash else .failure := by
  have h1 := (instructions_iff M _).2 hi
  rw [← startFails_none] at hs
  have key := fun fuel => C63_null_file_crashes M.fs M.dir before [] rest fuel
  have hn : none ∈ before.map some ++ none :: rest := by simp
  constructor
  · by_cases hp : ∀ y ∈ before, Processable M.fs M.dir y
    · exact ⟨_, _, .nullFile _ hs h1 hn ⟨before.length + 1, fun fuel hf => (key fuel (by omega)).1.2 hp⟩⟩
    · refine ⟨_, _, .beforeNull _ hs h1 hn ⟨before.length + 1, fun fuel hf => (key fuel (by omega)).2.2 ?_⟩⟩
      simpa using hp
  · intro e log he
    have notLoaded : ∀ {i : DInstr} {P : Setup}, M.instructions = .ok i → ¬ Loaded i P := by
      intro i P h hl
      rw [h1] at h
      cases h
      have hf : _ = before.map some ++ none :: rest := hl.filesRead
      rw [← hf] at hn
      simp at hn
    cases he with
    | start e h => rw [hs] at h; cases h
    | instructionsFail _ h => rw [h1] at h; cases h
    | instructionsFailCrash _ _ _ h _ _ _ _ => rw [h1] at h; cases h
    | instructionsCrash _ h => rw [h1] at h; cases h
    | nullFile i _ h _ hN =>
      rw [h1] at h
      cases h
      obtain ⟨N, hN⟩ := hN
      have hk := key (max N (before.length + 1)) (by omega)
      rw [if_pos (hk.1.1 (hN _ (by omega)))]
      exact ⟨rfl, rfl⟩
    | beforeNull i _ h _ hN =>
      rw [h1] at h
      cases h
      obtain ⟨N, hN⟩ := hN
      have hk := key (max N (before.length + 1)) (by omega)
      obtain ⟨y, hy, hp⟩ := hk.2.1 (hN _ (by omega))
      rw [if_neg (fun hc => hp (hc y hy))]
      exact ⟨rfl, rfl⟩
    | badValue i _ _ _ _ _ h hl _ _ => exact absurd hl (notLoaded h)
    | unreadable i _ _ _ _ _ h hl _ => exact absurd hl (notLoaded h)
    | ran i _ _ _ _ _ s r _ h hl _ _ _ _ => exact absurd hl (notLoaded h)
    | crashed i _ _ _ _ _ s _ h hl _ _ _ _ => exact absurd hl (notLoaded h)

/-- **C66** The same if some entry does not exist or cannot be read. -/
theorem C66_unreadable (M : Machine) (T : Task) (ha : Asks M T) (hm : Environment (settingsOf M)) (hr : ¬ T.Readable (settingsOf M))
    (e : Exit) (log : List Out) (he : M.Ends e log) : e ≠ .success ∧ log = [] := by
  rcases ends_cases ha hm he with ⟨h1, h2⟩ | ⟨_, _, rfl, h2⟩ | ⟨_, h2, _⟩
  · exact ⟨fun hc => startFails_ne_success M (hc ▸ h1), h2⟩
  · exact ⟨by simp, h2⟩
  · exact absurd h2 hr

/-- **C66** If every input can be read and processed and no output fails, the
status is 0, under every schedule. -/
theorem C66_no_false_alarm (M : Machine) (T : Task) (ha : Asks M T) (hm : Environment (settingsOf M)) (hs : StartsWell M)
    (hr : T.Readable (settingsOf M)) (hok : ∀ p ∈ T.inputs (settingsOf M), ∃ t, Produces M T p t)
    (hw : ∀ log o, M.writeFails log o = false) (e : Exit) (log : List Out) (he : M.Ends e log) : e = .success := by
  rw [← startFails_none] at hs
  rcases ends_cases ha hm he with ⟨h1, _⟩ | ⟨_, h1, _⟩ | ⟨_, _, s, ⟨g⟩, rfl, h⟩
  · rw [hs] at h1; cases h1
  · exact absurd hr h1.1
  · have := g.pick (Q := fun files => ∀ s, Reach ((M.setup g.obj g.docObj g.instr g.adHoc).run files) s → s.crashed = false ∧ ∀ r, Returned s r → r = none)
      (from_loaded_safe g.loaded g.stands (env_setup hm _ _ _ _) hr (by
        intro p hp
        obtain ⟨t, docs, h1, h2⟩ := hok p hp
        exact ⟨docs, t, h1, h2⟩) hw) s g.reach
    rcases h with ⟨r, h1, h2⟩ | ⟨h1, _⟩
    · rw [this.2 r h1] at h2; exact h2
    · rw [this.1] at h1; cases h1

theorem expandLoop_enough {O D : Type} (fs : Fs) (dir : Str) (fuel fuel' : Nat) (done ys : List (Entry O D)) (hf : fuel ≤ fuel')
    (h : expandLoop fs dir fuel done ys ≠ .running) : expandLoop fs dir fuel' done ys = expandLoop fs dir fuel done ys := by
  obtain ⟨k, rfl⟩ : ∃ k, fuel' = fuel + k := ⟨fuel' - fuel, by omega⟩
  clear hf
  induction k with
  | zero => rfl
  | succ k ih =>
    rcases expandLoop_more fs dir (fuel + k) done ys with h1 | h1
    · rw [ih] at h1; exact absurd h1 h
    · rw [← ih, ← h1, Nat.add_assoc]

theorem getInstructions_more (P : Setup) (fuel fuel' : Nat) (hf : fuel ≤ fuel') (files : List (Entry (List Nat) (List (Option DocObj))))
    (h : P.getInstructions fuel = .done files) : P.getInstructions fuel' = .done files := by
  unfold Setup.getInstructions at h ⊢
  cases h1 : expandLoop P.fs P.dir fuel [] P.instr.entries with
  | err => rw [h1] at h; cases h
  | running => rw [h1] at h; cases h
  | done es =>
    rw [h1] at h
    have h1' := expandLoop_enough P.fs P.dir fuel fuel' [] P.instr.entries hf (by rw [h1]; simp)
    rw [h1', h1]
    dsimp only at h ⊢
    cases h2 : readAll P.read1 (mergeDupS P.grow P.instr.ov P.instr.dc [] es).files with
    | none => rw [h2] at h; cases h
    | some ys =>
      rw [h2] at h
      dsimp only at h ⊢
      have h3 : P.adHocFiles fuel ≠ .running → P.adHocFiles fuel' = P.adHocFiles fuel := by
        intro hn
        unfold Setup.adHocFiles at hn ⊢
        split
        · rfl
        · rename_i hp
          rw [if_neg hp] at hn
          rw [expandLoop_enough P.fs P.dir fuel fuel' [] [P.adHocEntry] hf (by
            intro hc
            rw [hc] at hn
            exact hn rfl)]
      have h4 : P.adHocFiles fuel ≠ .running := by
        intro hc
        rw [hc] at h
        cases h
      rw [h3 h4]
      exact h

theorem exists_end (R : Run) : ∃ s, Reach R s ∧ s.over := by
  have : ∀ n (s : State), Reach R s → s.weight R.files.length ≤ n → ∃ s, Reach R s ∧ s.over := by
    intro n
    induction n with
    | zero =>
      intro s hs hn
      by_cases ho : s.over
      · exact ⟨s, hs, ho⟩
      · obtain ⟨s', h'⟩ := progress hs ho
        have := step_weight h'
        omega
    | succ n ih =>
      intro s hs hn
      by_cases ho : s.over
      · exact ⟨s, hs, ho⟩
      · obtain ⟨s', h'⟩ := progress hs ho
        have := step_weight h'
        exact ih s' (.step hs h') (by omega)
  exact this _ _ .start (Nat.le_refl _)

/-- **C66** The process does end, unless it never stops listing files (for instructions
with a null under `yamlFiles` see `C66_null_file`). -/
theorem C66_ends (M : Machine) (common : List (Option DOverlay)) (files : List DFile) (ha : AsksFiles M common files)
    (hm : Environment (settingsOf M)) (hh : ¬ Task.Hangs ⟨common, files, none⟩ (settingsOf M)) : ∃ e log, M.Ends e log := by
  cases hs : M.startFails with
  | some e => exact ⟨e, [], .start e hs⟩
  | none =>
    have h1 := (instructions_iff M _).2 ha
    by_cases hr : Task.Readable ⟨common, files, none⟩ (settingsOf M)
    · cases hb : adHocOverlay M.D M.cli with
      | none =>
        have hl := loaded_loaded (settingsOf M) ⟨common, files, none⟩
        have hl : Loaded ⟨common, files.map some⟩ (M.setup (Task.objAt ⟨common, files, none⟩) (Task.docAt ⟨common, files, none⟩)
          (Task.instr ⟨common, files, none⟩) none) := hl
        obtain ⟨N, hN⟩ := loaded_reads hm hl none
        obtain ⟨fs, hf⟩ := (hN N (Nat.le_refl _)).1 hr
        exact ⟨_, _, .badValue _ _ _ _ fs hs h1 hl ⟨N, fun fuel h => getInstructions_more _ N fuel h fs hf⟩ hb⟩
      | some x =>
        have hfd : FlagsDescribe M.D M.cli (x.map (fun p => cliOverlay p.1 p.2)) := flagsDescribe_iff.2 ⟨x, hb, rfl⟩
        obtain ⟨T, hT⟩ : ∃ T : Task, T = ⟨common, files, x.map (fun p => cliOverlay p.1 p.2)⟩ := ⟨_, rfl⟩
        have hfl : FlagsLoaded M.D M.cli (T.loaded (settingsOf M)) := flags_loaded (settingsOf M) (by rw [hT]; exact hfd)
        have hfl : FlagsLoaded M.D M.cli (M.setup T.objAt T.docAt T.instr (T.cli.map (fun _ => Nat.pair 3 0))) := hfl
        have hl := loaded_loaded (settingsOf M) T
        have hl : Loaded ⟨T.common, T.files.map some⟩ (M.setup T.objAt T.docAt T.instr (T.cli.map (fun _ => Nat.pair 3 0))) := hl
        obtain ⟨N, hN⟩ := loaded_reads hm hl none
        have hr' : Task.Readable ⟨T.common, T.files, none⟩ (settingsOf M) := by rw [hT]; exact hr
        obtain ⟨fs, hf⟩ := (hN N (Nat.le_refl _)).1 hr'
        have hgot : ∃ N, ∀ fuel, N ≤ fuel →
            (M.setup T.objAt T.docAt T.instr (T.cli.map (fun _ => Nat.pair 3 0))).getInstructions fuel = .done fs :=
          ⟨N, fun fuel h => getInstructions_more _ N fuel h fs hf⟩
        have h1 : M.instructions = .ok ⟨T.common, T.files.map some⟩ := by rw [hT]; exact h1
        obtain ⟨s, hreach, hover⟩ := exists_end ((M.setup T.objAt T.docAt T.instr (T.cli.map (fun _ => Nat.pair 3 0))).run fs)
        rcases hover with hc | ⟨r, hret⟩
        · exact ⟨_, _, .crashed _ _ _ _ _ fs s hs h1 hl hfl hgot hreach hc⟩
        · exact ⟨_, _, .ran _ _ _ _ _ fs s r hs h1 hl hfl hgot hreach hret⟩
    · have hl := loaded_loaded (settingsOf M) ⟨common, files, none⟩
      have hl : Loaded ⟨common, files.map some⟩ (M.setup (Task.objAt ⟨common, files, none⟩) (Task.docAt ⟨common, files, none⟩)
        (Task.instr ⟨common, files, none⟩) none) := hl
      obtain ⟨N, hN⟩ := loaded_reads hm hl none
      exact ⟨.failure, [], .unreadable _ _ _ _ _ hs h1 hl ⟨N, fun fuel hf => (hN fuel hf).2.1 hr hh⟩⟩

/-- **C66** If it never stops listing files, it does not end, after a good start. -/
theorem C66_hangs (M : Machine) (common : List (Option DOverlay)) (files : List DFile) (ha : AsksFiles M common files)
    (hm : Environment (settingsOf M)) (hs : StartsWell M) (hh : Task.Hangs ⟨common, files, none⟩ (settingsOf M)) :
    ¬ ∃ e log, M.Ends e log := by
  rintro ⟨e, log, he⟩
  rw [← startFails_none] at hs
  have no : ¬ Task.Readable ⟨common, files, none⟩ (settingsOf M) := by
    intro h1
    rcases hh with ⟨h2, h3⟩ | ⟨_, h2, h3⟩
    · exact h1.1.2.1 h3
    · exact h1.2.2.1 h3
  rcases ends_cases_files ha hm he with ⟨h1, _⟩ | ⟨_, h1, _⟩ | ⟨_, h1, _⟩ | ⟨_, h1, _⟩
  · rw [hs] at h1; cases h1
  · exact h1.2 hh
  · exact no h1
  · exact no h1

/-- **C66** Status 1 after a good start, the files being readable, means that some
input's overlays or rendering failed, or some output. -/
theorem C66_failure (M : Machine) (T : Task) (ha : Asks M T) (hm : Environment (settingsOf M)) (hs : StartsWell M)
    (hr : T.Readable (settingsOf M)) (log : List Out) (he : M.Ends .failure log) :
    (∃ p ∈ T.inputs (settingsOf M), ¬ ∃ t, Produces M T p t) ∨ ∃ log o, M.writeFails log o = true := by
  apply Classical.byContradiction
  intro hc
  rw [not_or] at hc
  have := C66_no_false_alarm M T ha hm hs hr (by
    intro p hp
    exact Classical.byContradiction (fun h => hc.1 ⟨p, hp, h⟩)) (by
    intro log o
    cases h : M.writeFails log o with
    | false => rfl
    | true => exact absurd ⟨log, o, h⟩ hc.2) _ _ he
  cases this

/-- **C66** Status 2 after a good start, the files being readable, means that some input can
make a crash: there is a null among the overlays for one of its documents, or one crashes,
or the rendering. -/
theorem C66_crash (M : Machine) (T : Task) (ha : Asks M T) (hm : Environment (settingsOf M)) (hs : StartsWell M)
    (hr : T.Readable (settingsOf M)) (log : List Out) (he : M.Ends .crash log) :
    ∃ p ∈ T.inputs (settingsOf M), T.MayCrash (settingsOf M) p := by
  rw [← startFails_none] at hs
  rcases ends_cases ha hm he with ⟨h1, _⟩ | ⟨_, h1, _⟩ | ⟨_, _, s, ⟨g⟩, rfl, ⟨r, _, h1⟩ | ⟨h1, _⟩⟩
  · rw [hs] at h1; cases h1
  · exact absurd hr h1.1
  · split at h1 <;> cases h1
  · exact g.pick (Q := fun files => ∀ s, Reach ((M.setup g.obj g.docObj g.instr g.adHoc).run files) s → s.crashed = true → _)
      (from_loaded_crash g.loaded g.stands (env_setup hm _ _ _ _) hr) s g.reach h1

theorem applyItems_null (E : Sed) (dflt : Str) (os : List (Option DOverlay)) (h : none ∈ os) :
    ∀ d d', applyItems E dflt os d ≠ .ok d' := by
  induction os with
  | nil => cases h
  | cons o os ih =>
    intro d d' hc
    cases o with
    | none => cases hc
    | some o =>
      obtain ⟨d1, _, h2⟩ := Res.bind_eq_ok.1 hc
      exact ih (by simpa using h) d1 d' h2

/-- **C66** (The code crashes here.) A null among the overlays for a document: the status
is never 0. -/
theorem C66_null_overlay (M : Machine) (T : Task) (ha : Asks M T) (hm : Environment (settingsOf M)) (p : Str)
    (hp : p ∈ T.inputs (settingsOf M)) (i : Nat) (d : Node) (hd : (T.contents (settingsOf M) p)[i]? = some d)
    (hn : none ∈ T.overlaysOn (settingsOf M) p i) (log : List Out) : ¬ M.Ends .success log := by
  intro h
  obtain ⟨_, _, text, h1, _⟩ := C66_success M T ha hm log h
  obtain ⟨docs, ⟨_, h2⟩, _⟩ := h1 p hp
  obtain ⟨d', _, h3⟩ := h2 i d hd
  exact applyItems_null _ _ _ hn _ _ h3

/-! ### C67 -/

theorem diskAfter_append (loc : Str → Str) : ∀ (es es' : List Effect) (d : Str → Option Str),
    diskAfter loc d (es ++ es') = diskAfter loc (diskAfter loc d es) es' := by
  intro es
  induction es with
  | nil => intro es' d; rfl
  | cons e es ih => intro es' d; exact ih es' _

theorem printedBy_append : ∀ (es es' : List Effect), printedBy (es ++ es') = printedBy es ++ printedBy es' := by
  intro es
  induction es with
  | nil => intro es'; rfl
  | cons e es ih => intro es'; cases e <;> simp [printedBy, ih]

theorem diskAfter_print (loc : Str → Str) (ts : List Str) (d : Str → Option Str) : diskAfter loc d (ts.map .print) = d := by
  induction ts with
  | nil => rfl
  | cons t ts ih => exact ih

theorem printedBy_print (ts : List Str) : printedBy (ts.map .print) = ts.flatten := by
  induction ts with
  | nil => rfl
  | cons t ts ih => simp [printedBy, ih]

theorem printedBy_appends (n : Str) (ts : List Str) : printedBy (ts.map (.append n)) = [] := by
  induction ts with
  | nil => rfl
  | cons t ts ih => simp [printedBy, ih]

theorem diskAfter_appends (loc : Str → Str) (n : Str) : ∀ (ts : List Str) (d : Str → Option Str) (x : Str), d (loc n) = some x →
    ∀ l, diskAfter loc d (ts.map (.append n)) l = if l = loc n then some (x ++ ts.flatten) else d l := by
  intro ts
  induction ts with
  | nil =>
    intro d x hx l
    by_cases hl : l = loc n
    · simp [diskAfter, hl, hx]
    · simp [diskAfter, hl]
  | cons t ts ih =>
    intro d x hx l
    rw [List.map_cons, diskAfter, ih _ (x ++ t) (by simp [Effect.run, hx])]
    by_cases hl : l = loc n
    · simp [hl]
    · simp [hl, Effect.run]

/-- What writing one output does. -/
theorem diskAfter_effects (loc : Str → Str) (o : Out) (pieces : List Str) (d : Str → Option Str) (l : Str) :
    diskAfter loc d (effectsOf false o pieces) l = if l = loc o.name then some pieces.flatten else d l := by
  show diskAfter loc d (.create o.name :: .print (o.name ++ ['\n']) :: pieces.map (.append o.name)) l = _
  rw [diskAfter, diskAfter, diskAfter_appends loc o.name pieces _ [] (by simp [Effect.run])]
  by_cases hl : l = loc o.name
  · simp [hl]
  · simp [hl, Effect.run]

/-- ... and what it has done when it is interrupted. -/
theorem diskAfter_interrupted (loc : Str → Str) (o : Out) (pieces : List Str) (es : List Effect) (d : Str → Option Str)
    (hes : es <+: effectsOf false o pieces) (l : Str) :
    diskAfter loc d es l = d l ∨ (l = loc o.name ∧ ∃ t, t <+: pieces.flatten ∧ diskAfter loc d es l = some t) := by
  have h : es <+: .create o.name :: .print (o.name ++ ['\n']) :: pieces.map (.append o.name) := hes
  clear hes
  rcases es with _ | ⟨e1, es⟩
  · exact .inl rfl
  obtain ⟨h0, h2⟩ := List.cons_prefix_cons.1 h
  clear h
  subst h0
  rcases es with _ | ⟨e2, es⟩
  · by_cases hl : l = loc o.name
    · exact .inr ⟨hl, [], List.nil_prefix, by simp [diskAfter, Effect.run, hl]⟩
    · exact .inl (by simp [diskAfter, Effect.run, hl])
  obtain ⟨h0, h⟩ := List.cons_prefix_cons.1 h2
  clear h2
  subst h0
  obtain ⟨rest, hrest⟩ := h
  obtain ⟨ts, us, hp, ht, _⟩ := List.map_eq_append_iff.1 hrest.symm
  rw [← ht, diskAfter, diskAfter, diskAfter_appends loc o.name ts _ [] (by simp [Effect.run])]
  by_cases hl : l = loc o.name
  · exact .inr ⟨hl, ts.flatten, ⟨us.flatten, by rw [hp, List.flatten_append]⟩, by simp [hl]⟩
  · exact .inl (by simp [hl, Effect.run])

/-- After writing outputs a file has the text of the last one for it, or is as before. -/
theorem diskAfter_written (loc : Str → Str) (d : Str → Option Str) {log : List Out} {es : List Effect} (h : AllWritten false log es)
    (l : Str) : diskAfter loc d es l =
      (match (log.filter (fun o => decide (loc o.name = l))).getLast? with
       | some o => some o.text
       | none => d l) := by
  induction h with
  | nil => rfl
  | snoc log es o pieces _ ht ih =>
    rw [diskAfter_append, diskAfter_effects, List.filter_append, ht]
    by_cases hl : l = loc o.name
    · simp [hl]
    · rw [if_neg hl, ih, List.filter_cons_of_neg (by simpa using fun hc => hl hc.symm), List.filter_nil, List.append_nil]

theorem written_stdout (loc : Str → Str) (d : Str → Option Str) {log : List Out} {es : List Effect} (h : AllWritten true log es) :
    diskAfter loc d es = d ∧ printedBy es = log.flatMap Out.text := by
  induction h with
  | nil => exact ⟨rfl, rfl⟩
  | snoc log es o pieces _ ht ih =>
    refine ⟨?_, ?_⟩
    · rw [diskAfter_append, ih.1]; exact diskAfter_print loc pieces d
    · rw [printedBy_append, ih.2, List.flatMap_append]
      show _ ++ printedBy (pieces.map .print) = _
      rw [printedBy_print, ht]
      simp

theorem written_names {log : List Out} {es : List Effect} (h : AllWritten false log es) :
    printedBy es = log.flatMap (fun o => o.name ++ ['\n']) := by
  induction h with
  | nil => rfl
  | snoc log es o pieces _ ht ih =>
    rw [printedBy_append, ih, List.flatMap_append]
    congr 1
    show (o.name ++ ['\n']) ++ printedBy (pieces.map (.append o.name)) = _
    rw [printedBy_appends]
    simp

theorem allWritten_exists (b : Bool) (log : List Out) : ∃ es, AllWritten b log es := by
  have : ∀ l : List Out, ∃ es, AllWritten b l.reverse es := by
    intro l
    induction l with
    | nil => exact ⟨[], .nil⟩
    | cons o l ih =>
      obtain ⟨es, ih⟩ := ih
      rw [List.reverse_cons]
      exact ⟨_, .snoc _ es o [o.text] ih (by simp)⟩
  have h := this log.reverse
  rwa [List.reverse_reverse] at h

theorem allWritten_nil {b : Bool} {es : List Effect} (h : AllWritten b [] es) : es = [] := by
  generalize hl : ([] : List Out) = log at h
  cases h with
  | nil => rfl
  | snoc log es o pieces _ _ => simp at hl

theorem underway_nil {b : Bool} {es : List Effect} (h : Underway b [] es) : es = [] := by
  rcases h with h | ⟨pre, o, es0, pieces, es1, h, _⟩
  · exact allWritten_nil h
  · simp at h

theorem Going.results {M : Machine} {T : Task} {s : State} (g : Going M T s) (hm : Environment (settingsOf M)) (hr : T.Readable (settingsOf M)) (o : Out) (ho : o ∈ s.log) :
    ∃ p ∈ T.inputs (settingsOf M), o.name = T.nameFor (settingsOf M) p ∧ Produces M T p (some o.text) := by
  obtain ⟨ps, _, h2, h3⟩ := g.pick (Q := fun files => ∀ s, Reach ((M.setup g.obj g.docObj g.instr g.adHoc).run files) s → _)
    (from_loaded_results g.loaded g.stands (env_setup hm _ _ _ _) hr) s g.reach
  obtain ⟨i, hi, rfl⟩ := List.mem_iff_getElem.1 ho
  have hl := h3.length_eq
  have := (List.forall₂_iff_get.1 h3).2 i (by omega) hi
  exact ⟨ps[i]'(by omega), h2 _ (List.getElem_mem _), this.1, this.2⟩

/-- **C67** The files after a run that ends with status 0: every input's result is
at its destination (where several results have the same destination, one of them in full);
nothing else has changed; and
the names of the files written have been printed, one per line. This is the result for the
files as they were at the start, even where a destination is itself an input. -/
theorem C67_files_after (M : Machine) (T : Task) (ha : Asks M T) (hm : Environment (settingsOf M)) (hs : M.stdout = false)
    (es : List Effect) (h : M.Leaves .success es) :
    ∃ text : Str → Option Str, (∀ p ∈ T.inputs (settingsOf M), Produces M T p (text p)) ∧
      (∀ p ∈ T.inputs (settingsOf M), (text p).isSome → ∃ q ∈ T.inputs (settingsOf M), ∃ t, text q = some t ∧
          destination M T q = destination M T p ∧ diskAfter M.locate M.disk es (destination M T p) = some t) ∧
      ((∀ p ∈ T.inputs (settingsOf M), ∀ q ∈ T.inputs (settingsOf M), (text p).isSome → (text q).isSome →
          destination M T p = destination M T q → p = q) →
        ∀ p ∈ T.inputs (settingsOf M), ∀ t, text p = some t → diskAfter M.locate M.disk es (destination M T p) = some t) ∧
      (∀ l, (∀ p ∈ T.inputs (settingsOf M), (text p).isSome → l ≠ destination M T p) → diskAfter M.locate M.disk es l = M.disk l) ∧
      ∃ lines : List Str, lines.Perm (((T.inputs (settingsOf M)).filter (fun p => (text p).isSome)).map (T.nameFor (settingsOf M))) ∧
        printedBy es = lines.flatMap (fun n => n ++ ['\n']) := by
  obtain ⟨log, hends, hw⟩ := h
  rw [if_pos rfl, hs] at hw
  obtain ⟨_, _, text, h1, h2⟩ := C66_success M T ha hm log hends
  have memLog : ∀ o ∈ log, ∃ p ∈ T.inputs (settingsOf M), text p = some o.text ∧ o.name = T.nameFor (settingsOf M) p := by
    intro o ho
    have : (o.name, o.text) ∈ (T.inputs (settingsOf M)).filterMap (fun p => (text p).map (fun t => (T.nameFor (settingsOf M) p, t))) :=
      h2.mem_iff.1 (List.mem_map.2 ⟨o, ho, rfl⟩)
    obtain ⟨p, hp, he⟩ := List.mem_filterMap.1 this
    obtain ⟨t, ht, he⟩ := Option.map_eq_some_iff.1 he
    exact ⟨p, hp, ht.trans (congrArg some (congrArg Prod.snd he)), (congrArg Prod.fst he).symm⟩
  have logMem : ∀ p ∈ T.inputs (settingsOf M), ∀ t, text p = some t → ∃ o ∈ log, o.name = T.nameFor (settingsOf M) p ∧ o.text = t := by
    intro p hp t ht
    have : (T.nameFor (settingsOf M) p, t) ∈ log.map (fun o => (o.name, o.text)) :=
      h2.mem_iff.2 (List.mem_filterMap.2 ⟨p, hp, by rw [ht]; rfl⟩)
    obtain ⟨o, ho, he⟩ := List.mem_map.1 this
    exact ⟨o, ho, congrArg Prod.fst he, congrArg Prod.snd he⟩
  refine ⟨text, h1, ?_, ?_, ?_, log.map Out.name, ?_, ?_⟩
  · intro p hp ht
    obtain ⟨t, ht⟩ := Option.isSome_iff_exists.1 ht
    rw [diskAfter_written M.locate M.disk hw]
    split
    · rename_i o hlast
      obtain ⟨ho, hloc⟩ := List.mem_filter.1 (List.mem_of_getLast? hlast)
      obtain ⟨q, hq, hqt, hqn⟩ := memLog o ho
      have hloc : M.locate o.name = destination M T p := by simpa using hloc
      exact ⟨q, hq, o.text, hqt, by rw [← hloc, hqn]; rfl, rfl⟩
    · rename_i hlast
      obtain ⟨o, ho, hn, _⟩ := logMem p hp t ht
      rw [List.getLast?_eq_none_iff] at hlast
      have := List.filter_eq_nil_iff.1 hlast o ho
      rw [hn] at this
      exact absurd (decide_eq_true (by rfl)) this
  · intro inj p hp t ht
    rw [diskAfter_written M.locate M.disk hw]
    split
    · rename_i o hlast
      obtain ⟨ho, hloc⟩ := List.mem_filter.1 (List.mem_of_getLast? hlast)
      obtain ⟨q, hq, hqt, hqn⟩ := memLog o ho
      have hloc : M.locate o.name = destination M T p := by simpa using hloc
      have : q = p := inj q hq p hp (by rw [hqt]; rfl) (by rw [ht]; rfl) (by unfold destination at *; rw [← hqn, hloc])
      subst this
      rw [← hqt, ht]
    · rename_i hlast
      obtain ⟨o, ho, hn, _⟩ := logMem p hp t ht
      rw [List.getLast?_eq_none_iff] at hlast
      have := List.filter_eq_nil_iff.1 hlast o ho
      rw [hn] at this
      exact absurd (decide_eq_true (by rfl)) this
  · intro l hl
    rw [diskAfter_written M.locate M.disk hw]
    split
    · rename_i o hlast
      obtain ⟨ho, hloc⟩ := List.mem_filter.1 (List.mem_of_getLast? hlast)
      obtain ⟨q, hq, hqt, hqn⟩ := memLog o ho
      have hloc : M.locate o.name = l := by simpa using hloc
      exact absurd (by rw [← hloc, hqn]; rfl) (hl q hq (by rw [hqt]; rfl))
    · rfl
  · have := h2.map Prod.fst
    rw [List.map_map] at this
    refine List.Perm.trans this (List.Perm.of_eq ?_)
    generalize T.inputs (settingsOf M) = ps
    induction ps with
    | nil => rfl
    | cons p ps ih =>
      cases ht : text p with
      | none => simpa [ht] using ih
      | some t => simpa [ht] using ih
  · rw [written_names hw, List.flatMap_map]

/-- **C67** At any moment at which the process may be killed, every file is as it was at the
start, or is at the destination of an input and has a part of that input's result from
its beginning on (perhaps all, perhaps nothing): nothing else is ever touched. -/
theorem C67_any_moment (M : Machine) (T : Task) (ha : Asks M T) (hm : Environment (settingsOf M)) (hs : M.stdout = false)
    (es : List Effect) (h : M.Moment es) (l : Str) :
    diskAfter M.locate M.disk es l = M.disk l ∨
    ∃ p ∈ T.inputs (settingsOf M), l = destination M T p ∧
      ∃ t t', Produces M T p (some t) ∧ t' <+: t ∧ diskAfter M.locate M.disk es l = some t' := by
  rcases h with rfl | ⟨i, obj, docObj, instr, adHoc, files, s, h1, h2, h3, h3f, h4, h5, h6⟩
  · exact .inl rfl
  obtain ⟨g⟩ := going_of ha h2 h3 h3f h4 h5
  have full : ∀ (log : List Out) (es : List Effect), (∀ o ∈ log, o ∈ s.log) → AllWritten false log es →
      diskAfter M.locate M.disk es l = M.disk l ∨
      ∃ p ∈ T.inputs (settingsOf M), l = destination M T p ∧
        ∃ t t', Produces M T p (some t) ∧ t' <+: t ∧ diskAfter M.locate M.disk es l = some t' := by
    intro log es hsub hw
    rw [diskAfter_written M.locate M.disk hw]
    split
    · rename_i o hlast
      obtain ⟨ho, hloc⟩ := List.mem_filter.1 (List.mem_of_getLast? hlast)
      obtain ⟨p, hp, hn, hpr⟩ := g.results hm (g.readable ha hm) o (hsub o ho)
      refine .inr ⟨p, hp, ?_, o.text, o.text, hpr, List.prefix_refl _, rfl⟩
      have hloc : M.locate o.name = l := by simpa using hloc
      rw [← hloc, hn]; rfl
    · exact .inl rfl
  rw [hs] at h6
  rcases h6 with h6 | ⟨pre, o, es0, pieces, es1, hlog, hw, ht, hpre, rfl⟩
  · exact full s.log es (fun _ h => h) h6
  · rw [diskAfter_append]
    rcases diskAfter_interrupted M.locate o pieces es1 (diskAfter M.locate M.disk es0) hpre l with h | ⟨hl, t, htp, h⟩
    · rw [h]
      exact full pre es0 (fun x hx => by rw [hlog]; exact List.mem_append_left _ hx) hw
    · right
      obtain ⟨p, hp, hn, hpr⟩ := g.results hm (g.readable ha hm) o (by rw [hlog]; simp)
      refine ⟨p, hp, by rw [hl, hn]; rfl, o.text, t, hpr, by rw [← ht]; exact htp, h⟩

/-- **C67** With the option `stdout` no file is ever touched, and after a run that ends with
status 0 the results have been printed in some order. -/
theorem C67_stdout (M : Machine) (hs : M.stdout = true) (es : List Effect) :
    (M.Moment es → diskAfter M.locate M.disk es = M.disk) ∧
    (M.Leaves .success es → diskAfter M.locate M.disk es = M.disk ∧
      ∃ log, M.Ends .success log ∧ printedBy es = log.flatMap Out.text) := by
  constructor
  · rintro (rfl | ⟨i, obj, docObj, instr, adHoc, files, s, _, _, _, _, _, _, h6⟩)
    · rfl
    · rw [hs] at h6
      rcases h6 with h6 | ⟨pre, o, es0, pieces, es1, hlog, hw, ht, ⟨rest, hpre⟩, rfl⟩
      · exact (written_stdout M.locate M.disk h6).1
      · rw [diskAfter_append, (written_stdout M.locate M.disk hw).1]
        have hpre : es1 ++ rest = pieces.map .print := hpre
        obtain ⟨ts, us, _, ht, _⟩ := List.map_eq_append_iff.1 hpre.symm
        rw [← ht]
        exact diskAfter_print _ _ _
  · rintro ⟨log, hends, hw⟩
    rw [if_pos rfl, hs] at hw
    exact ⟨(written_stdout M.locate M.disk hw).1, log, hends, (written_stdout M.locate M.disk hw).2⟩

/-- **C67** The end of a process, with whatever status, is such a moment. -/
theorem C67_end_is_moment (M : Machine) (e : Exit) (es : List Effect) (h : M.Leaves e es) : M.Moment es := by
  obtain ⟨log, hends, hw'⟩ := h
  have hw : Underway M.stdout log es := by
    split at hw'
    · exact .inl hw'
    · exact hw'
  clear hw'
  cases hends with
  | ran i obj docObj instr adHoc files s r h1 h2 h3 h4 h5 h6 _ => exact .inr ⟨i, obj, docObj, instr, adHoc, files, s, h1, h2, h3, h4, h5, h6, hw⟩
  | crashed i obj docObj instr adHoc files s h1 h2 h3 h4 h5 h6 _ => exact .inr ⟨i, obj, docObj, instr, adHoc, files, s, h1, h2, h3, h4, h5, h6, hw⟩
  | _ => exact .inl (underway_nil hw)

/-- **C67** fails for "before or after": files are not replaced at once.  Whenever a process can
end having written something, there is a moment at which the last file written is
empty, whatever it was before. -/
theorem C67_not_atomic (M : Machine) (hs : M.stdout = false) (e : Exit) (log : List Out) (h : M.Ends e log) (o : Out)
    (hl : log.getLast? = some o) : ∃ es, M.Moment es ∧ diskAfter M.locate M.disk es (M.locate o.name) = some [] := by
  obtain ⟨pre, hpre⟩ : ∃ pre, log = pre ++ [o] := by
    rw [List.getLast?_eq_some_iff] at hl
    exact hl
  obtain ⟨es, hes⟩ := allWritten_exists false pre
  have hw : Underway M.stdout log (es ++ [.create o.name]) := by
    rw [hs]
    exact .inr ⟨pre, o, es, [o.text], [.create o.name], hpre, hes, by simp, ⟨.print (o.name ++ ['\n']) :: [.append o.name o.text], rfl⟩, rfl⟩
  refine ⟨es ++ [.create o.name], ?_, by rw [diskAfter_append]; simp [diskAfter, Effect.run]⟩
  cases h with
  | ran i obj docObj instr adHoc files s r h1 h2 h3 h4 h5 h6 _ => exact .inr ⟨i, obj, docObj, instr, adHoc, files, s, h1, h2, h3, h4, h5, h6, hw⟩
  | crashed i obj docObj instr adHoc files s h1 h2 h3 h4 h5 h6 _ => exact .inr ⟨i, obj, docObj, instr, adHoc, files, s, h1, h2, h3, h4, h5, h6, hw⟩
  | _ => simp at hl

/-! ### An example -/

namespace Ex

/-- `yot -i i.yaml -o /o` in `/w`, where `i.yaml` lists `x.yaml` and replaces `k`. -/
def machine : Machine where
  start := { flags := fun f => if f = c!"output-directory" then some c!"/o" else none, env := fun _ => none, fileAt := fun _ => none, found := none }
  flagsParse := true
  cli := { queries := [], action := none, value := .empty }
  instructionsFile := c!"i.yaml"
  valueFiles := none
  path := []
  cwd := c!"/w"
  disk := fun l => if l = c!"/w/i.yaml" then some c!"I" else if l = c!"/w/x.yaml" then some c!"X" else none
  stdinText := none
  stdin1 := none
  stdin2 := none
  parse := fun t => if t = c!"I" then some (dc (mp [
      sc c!"commonOverlays", sq [mp [sc c!"query", sc c!"k", sc c!"action", sc c!"replace", sc c!"value", sc c!"new"]],
      sc c!"yamlFiles", sq [mp [sc c!"path", sc c!"x.yaml"]]])) else none
  parseAll := fun t => if t = c!"X" then some [(dc (mp [sc c!"k", sc c!"old"])).label] else none
  D := { exDec with path := fun s => some (findNames [s]) }
  templates := { wellFormed := fun _ => true, calls := fun _ => [], builtin := [], exec := fun t _ => some t }
  int := fun _ => 2
  encode := fun _ b n => .ok ((if b then [] else c!"---\n") ++ (n.content.flatMap (·.content)).flatMap (fun c => ' ' :: c.hd.value))
  sed := noSed
  fs := someFs
  grow := fun _ n => n
  writeFails := fun _ _ => false

def machineTask : Task where
  common := [some { base := { name := c!"k", query := [⟨c!"k", findNames [c!"k"]⟩], action := .replace, value := sc c!"new" } }]
  files := [{ path := c!"x.yaml" }]
  cli := none

theorem machine_asks : Asks machine machineTask := by
  refine ⟨.inr ⟨by decide, c!"I", _, .inl ⟨rfl, rfl⟩, rfl, ?_⟩, ?_⟩
  · exact (decodeInstructions_iff _ _ _).1 rfl
  · exact ⟨.invalid, [], .inl ⟨rfl, rfl⟩, .nil, .inl ⟨rfl, rfl⟩⟩

theorem machine_env : Environment (settingsOf machine) :=
  ⟨by right; decide, someFs_consistent, fun _ _ => Nat.le_refl _⟩

theorem machine_starts : StartsWell machine :=
  ⟨rfl, ⟨_, rfl⟩, ⟨_, rfl⟩, by decide, (isLevel_iff _).1 (by decide)⟩

theorem machine_inputs : machineTask.inputs (settingsOf machine) = [c!"/w/x.yaml"] := by decide

theorem machine_readable : machineTask.Readable (settingsOf machine) := by
  constructor
  · obtain ⟨h1, h2, _⟩ := someFs_read (fun _ => some []) (fun _ => rfl) machineTask.files (by
      intro y hy
      rw [List.mem_singleton.1 hy]
      right; decide)
    exact ⟨h1, h2, by decide⟩
  · rw [show Task.commandLine (settingsOf machine).adHocPath = [] from rfl]
    exact ⟨by simp [Refused, below], by simp [LinkedDir, below], by simp [expand]⟩

theorem machine_ends : ¬ machineTask.Hangs (settingsOf machine) := by
  rintro (⟨_, h⟩ | ⟨_, _, h⟩)
  · exact machine_readable.1.2.1 h
  · exact machine_readable.2.2.1 h

theorem machine_produces : Produces machine machineTask c!"/w/x.yaml" (some c!"---\n k new") := by
  let d := (dc (mp [sc c!"k", sc c!"old"])).label
  let d' := match applyItems noSed c!"ignore" (machineTask.overlaysOn (settingsOf machine) c!"/w/x.yaml" 0) d with
    | .ok d => d
    | _ => .mk {} []
  refine ⟨[d'], ⟨by decide, ?_⟩, by decide +kernel⟩
  intro i x hx
  match i with
  | 0 =>
    have : x = d := by
      have h : (machineTask.contents (settingsOf machine) c!"/w/x.yaml")[0]? = some d := by decide
      rw [h] at hx
      exact (Option.some.inj hx).symm
    subst this
    exact ⟨d', rfl, by decide +kernel⟩
  | i + 1 =>
    have : machineTask.contents (settingsOf machine) c!"/w/x.yaml" = [d] := by decide
    rw [this] at hx
    cases hx

/-- The process ends with status 0, the file written, and only that. -/
example : ∃ es, machine.Leaves .success es := by
  obtain ⟨e, log, h⟩ := C66_ends machine machineTask.common machineTask.files machine_asks.1 machine_env machine_ends
  have := C66_no_false_alarm machine machineTask machine_asks machine_env machine_starts machine_readable
    (by
      intro p hp
      rw [machine_inputs] at hp
      simp only [List.mem_cons, List.not_mem_nil, or_false] at hp
      subst hp
      exact ⟨_, machine_produces⟩) (fun _ _ => rfl) e log h
  subst this
  obtain ⟨es, hes⟩ := allWritten_exists machine.stdout log
  exact ⟨es, log, h, by rw [if_pos rfl]; exact hes⟩

/-- The same with a null after `x.yaml`. -/
def nullFileMachine : Machine := { machine with parse := fun t => if t = c!"I" then some (dc (mp [sc c!"yamlFiles", sq [mp [sc c!"path", sc c!"x.yaml"], .mk { kind := .scalar, tag := c!"!!null" } []]])) else none }

/-- It crashes, and only that. -/
example : (∃ e log, nullFileMachine.Ends e log) ∧ ∀ e log, nullFileMachine.Ends e log → log = [] ∧ e = .crash := by
  have := C66_null_file nullFileMachine ⟨rfl, ⟨_, rfl⟩, ⟨_, rfl⟩, by decide, (isLevel_iff _).1 (by decide)⟩ [] [{ path := c!"x.yaml" }] []
    (.inr ⟨by decide, c!"I", _, .inl ⟨rfl, rfl⟩, rfl, (decodeInstructions_iff _ _ _).1 rfl⟩)
  rwa [if_pos (by decide)] at this

/-- The same with a text instead of the list of files. -/
def refusedMachine : Machine := { machine with parse := fun t => if t = c!"I" then some (dc (mp [sc c!"yamlFiles", sc c!"x.yaml"])) else none }

/-- It ends with an error, and nothing else can happen. -/
example : (∃ e log, refusedMachine.Ends e log) ∧ ∀ e log, refusedMachine.Ends e log → e = .failure ∧ log = [] := by
  have hi : refusedMachine.instructions = .err () := rfl
  have hp : ∀ {t doc}, refusedMachine.parse t = some doc → doc = dc (mp [sc c!"yamlFiles", sc c!"x.yaml"]) := by
    intro t doc h
    simp only [refusedMachine] at h
    split at h
    · cases h; rfl
    · cases h
  have hs : StartsWell refusedMachine := ⟨rfl, ⟨_, rfl⟩, ⟨_, rfl⟩, by decide, (isLevel_iff _).1 (by decide)⟩
  refine ⟨⟨_, _, .instructionsFail ((startFails_none _).2 hs) hi⟩, fun e log he => C66_refused_reported refusedMachine hs ⟨by decide, ?_⟩ ?_ ?_ e log he⟩
  · rintro ⟨t, doc, i, h1, h2, h3⟩
    have := (instructions_iff refusedMachine i).2 (.inr ⟨by decide, t, doc, h1, h2, h3⟩)
    rw [hi] at this
    cases this
  · intro files nodes hv
    cases hv
  · intro t doc _ h hm
    rw [hp h] at hm
    obtain ⟨c, hc, kv, hkv, hm⟩ := hm
    simp only [dc, Node.content_mk, List.mem_singleton] at hc
    subst hc
    simp only [mp, Node.content_mk, Spec.pairs, List.mem_singleton] at hkv
    subst hkv
    simp [sc, isMergeKey] at hm

/-- The same with a null as the common overlay. -/
def nullOverlayMachine : Machine := { machine with parse := fun t => if t = c!"I" then some (dc (mp [sc c!"commonOverlays", sq [.mk { kind := .scalar, tag := c!"!!null" } []], sc c!"yamlFiles", sq [mp [sc c!"path", sc c!"x.yaml"]]])) else none }

/-- It never succeeds. -/
example (log : List Out) : ¬ nullOverlayMachine.Ends .success log :=
  C66_null_overlay nullOverlayMachine { machineTask with common := [none] }
    ⟨.inr ⟨by decide, c!"I", _, .inl ⟨rfl, rfl⟩, rfl, (decodeInstructions_iff _ _ _).1 rfl⟩, .invalid, [], .inl ⟨rfl, rfl⟩, .nil, .inl ⟨rfl, rfl⟩⟩
    machine_env c!"/w/x.yaml" (by decide) 0 (dc (mp [sc c!"k", sc c!"old"])).label (by decide)
    (List.mem_append_left _ (List.mem_filter.2 ⟨List.mem_append_left _ (List.mem_append_left _ (List.mem_singleton.2 rfl)), by decide⟩)) log

example : destination machine machineTask c!"/w/x.yaml" = c!"/o/x.yaml" := by decide

/-- A null, a mapping with a path, an alias. -/
def listItem : Nat → Node
  | 0 => .mk { kind := .scalar, tag := c!"!!null" } []
  | 1 => mp [sc c!"path", sc c!"x.yaml"]
  | _ => .mk { kind := .alias, value := c!"x" } []

instance (doc : Node) : Decidable (Machine.MayListNull doc) := by unfold Machine.MayListNull; infer_instance

/-! Which instructions list a null under `yamlFiles`, or may do so (C66_refused_reported). -/

example : Machine.MayListNull (dc (mp [sc c!"name", sc c!"x", sc c!"yamlFiles", sq [listItem 1, listItem 0]])) ∧
    Machine.MayListNull (dc (mp [sc c!"yamlFiles", sq [listItem 2]])) ∧
    Machine.MayListNull (dc (mp [sc c!"yamlFiles", listItem 2])) ∧
    Machine.MayListNull (dc (mp [sc c!"<<" c!"!!merge", listItem 2])) := by decide
example : ¬ Machine.MayListNull (dc (mp [sc c!"commonOverlays", sq [listItem 0, listItem 2], sc c!"yamlFiles", sq [listItem 1]])) ∧
    ¬ Machine.MayListNull (dc (mp [sc c!"yamlFiles", sc c!"<<" c!"!!merge"])) ∧
    ¬ Machine.MayListNull (dc (mp [sc c!"commonOverlays", listItem 2])) := by decide

end Ex

end Yot
