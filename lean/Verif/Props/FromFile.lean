import Verif.Spec.FromFile
import Verif.Props.Pipeline
import Verif.Props.AdHoc
import Mathlib.Data.Nat.Pairing
/-
C65: from the instructions file and the flags to the outputs.
-/
namespace Yot
open Spec Ex

/-! ### Reading is unambiguous -/

theorem instructionsAre_unique {D : Dec} {doc : Node} {i i' : DInstr} (h : InstructionsAre D doc i)
    (h' : InstructionsAre D doc i') : i = i' := by
  have h1 := (decodeInstructions_iff D doc i).2 h
  have h2 := (decodeInstructions_iff D doc i').2 h'
  rw [h1] at h2
  exact Option.some.inj h2

/-! ### Pointers and values -/

/-- The pointers of `P` stand for the values of `T`. -/
structure Stands (P : Setup) (T : Task) : Prop where
  common : (P.instr.ov.read P.instr.common).map P.obj = T.common
  files : (given P).map (Entry.deref P.obj) = T.files
  cli : P.adHoc.map P.obj = T.cli.map some

theorem expand_deref (fs : Fs) (dir : Str) (obj : Nat → Option DOverlay) (ys : List Written) :
    (expand fs dir ys).map (Entry.deref obj) = expand fs dir (ys.map (Entry.deref obj)) := by
  unfold expand
  rw [List.map_append, List.map_map, List.map_flatMap, List.filter_map, List.filter_map, List.map_map, List.flatMap_map]
  congr 1
  · refine congrArg₂ _ ?_ rfl
    funext y
    unfold located Entry.deref
    simp only [Function.comp_apply]
    split <;> rfl
  · congr 1
    funext y
    rw [List.map_map]
    rfl

theorem adHocGiven_deref (P : Setup) : (adHocGiven P).map (Entry.deref P.obj) = Task.commandLine P.adHocPath := by
  unfold adHocGiven Task.commandLine
  split <;> rfl

theorem listed_deref {P : Setup} {T : Task} (h : Stands P T) : (listed P).map (Entry.deref P.obj) = T.listed P := by
  unfold listed Task.listed
  rw [List.map_append, expand_deref, expand_deref, h.files, adHocGiven_deref]

theorem inputs_deref {P : Setup} {T : Task} (h : Stands P T) : Spec.inputs P = T.inputs P := by
  unfold Spec.inputs Task.inputs
  rw [← listed_deref h, List.map_map]
  rfl

theorem contents_deref {P : Setup} {T : Task} (h : Stands P T) (p : Str) : Spec.contents P p = T.contents P p := by
  unfold Spec.contents Task.contents
  rw [← h.files, ← expand_deref, documentsOf_map _ _ (Entry.deref P.obj) (fun _ => rfl) (fun _ => rfl)]

theorem entriesFor_deref {P : Setup} {T : Task} (h : Stands P T) (p : Str) :
    (entriesFor p (listed P)).map (Entry.deref P.obj) = entriesFor p (T.listed P) := by
  unfold entriesFor
  rw [← listed_deref h, List.filter_map]
  rfl

theorem own_deref {P : Setup} {T : Task} (h : Stands P T) (p : Str) : (own P p).map P.obj = T.own P p := by
  unfold own Task.own
  rw [List.map_flatMap, ← entriesFor_deref h, List.flatMap_map]
  rfl

theorem lastWriter_map {α β : Type} (f : α → β) (room : Nat) (owns : List (List α)) (i : Nat) :
    lastWriter room (owns.map (List.map f)) i = (lastWriter room owns i).map f := by
  unfold lastWriter
  rw [List.filter_map, List.getLast?_map]
  have : ((fun xs : List β => decide (xs.length ≤ room ∧ i < xs.length)) ∘ List.map f) =
      fun xs : List α => decide (xs.length ≤ room ∧ i < xs.length) := by
    funext xs
    simp
  rw [this]
  cases (owns.filter (fun xs : List α => decide (xs.length ≤ room ∧ i < xs.length))).getLast? with
  | none => rfl
  | some xs => simp

theorem received_map {α β : Type} (f : α → β) (room : Nat) (owns : List (List α)) (own : List α) :
    received room (owns.map (List.map f)) (own.map f) = (received room owns own).map f := by
  unfold received
  rw [List.length_map]
  split
  · rw [List.map_filterMap]
    apply List.filterMap_congr
    intro i _
    exact lastWriter_map f room owns i
  · rfl

theorem gets_deref {P : Setup} {T : Task} (h : Stands P T) (p : Str) : (gets P p).map P.obj = T.gets P p := by
  unfold gets Task.gets
  rw [← received_map, own_deref h, List.map_map, inputs_deref h]
  congr 1
  · unfold spare Task.spare
    have hc : T.cli.isSome = P.adHoc.isSome := by
      have := congrArg Option.isSome h.cli
      simpa using this.symm
    rw [← h.common, List.length_map, hc]
  · apply List.map_congr_left
    intro q _
    exact own_deref h q

theorem overlaysOn_deref {P : Setup} {T : Task} (h : Stands P T) (p : Str) (i : Nat) :
    Spec.overlaysOn P p i = T.overlaysOn P p i := by
  unfold Spec.overlaysOn Task.overlaysOn Spec.common Spec.ownDocs
  rw [List.map_append, List.map_append, h.common, gets_deref h]
  have e1 : P.adHoc.toList.map P.obj = T.cli.toList.map some := by
    have := h.cli
    cases ha : P.adHoc <;> cases hc : T.cli <;> rw [ha, hc] at this <;> simp at this ⊢
    exact this
  rw [e1]
  congr 1
  rw [← entriesFor_deref h, List.flatMap_map, List.flatMap_assoc, List.flatMap_assoc]
  congr 1
  funext e
  simp only [Entry.deref, List.flatMap_map]

theorem fileResult_deref {P : Setup} {T : Task} (h : Stands P T) (p : Str) (docs : List Node) :
    Spec.FileResult P p docs ↔ T.FileResult P p docs := by
  unfold Spec.FileResult Task.FileResult
  simp only [contents_deref h, overlaysOn_deref h]

theorem nameFor_deref {P : Setup} {T : Task} (h : Stands P T) (p : Str) : Spec.nameFor P p = T.nameFor P p := by
  unfold Spec.nameFor Task.nameFor Spec.givenOutput
  rw [inputs_deref h, ← entriesFor_deref h, List.map_map]
  rfl

theorem readable_deref {P : Setup} {T : Task} (h : (given P).map (Entry.deref P.obj) = T.files) : Spec.Readable P ↔ T.Readable P := by
  unfold Spec.Readable Task.Readable
  rw [← h, ← adHocGiven_deref, filesRead_map _ _ _ (Entry.deref P.obj) (fun _ => rfl) (fun _ => rfl),
    filesRead_map _ _ _ (Entry.deref P.obj) (fun _ => rfl) (fun _ => rfl)]

theorem hangs_deref {P : Setup} {T : Task} (h : (given P).map (Entry.deref P.obj) = T.files) : Spec.Hangs P ↔ T.Hangs P := by
  unfold Spec.Hangs Task.Hangs
  rw [← h, ← adHocGiven_deref, filesRead_map _ _ _ (Entry.deref P.obj) (fun _ => rfl) (fun _ => rfl),
    endless_map _ _ (Entry.deref P.obj) (fun _ => rfl) (fun _ => rfl), endless_map _ _ (Entry.deref P.obj) (fun _ => rfl) (fun _ => rfl)]

theorem flags_read {D : Dec} {c : CliFlags} {cli : Option DOverlay} (hf : FlagsDescribe D c cli) :
    (adHocOverlay D c = some none ∧ cli = none) ∨
    ∃ qs o, adHocOverlay D c = some (some (qs, o)) ∧ cli = some (cliOverlay qs o) := by
  obtain ⟨a, qs, ha, hq, hcli⟩ := hf
  have hqs : ∀ (fs : List Flag) (qs : List (Option Query)), List.Forall₂ (FlagQuery D) fs qs →
      ∀ acc, setQueryFlags D fs acc = some (acc ++ qs) := by
    intro fs qs h
    induction h with
    | nil => intro acc; simp [setQueryFlags]
    | @cons f q fs qs h1 h2 ih =>
      intro acc
      rw [setQueryFlags]
      have : setQueryFlag D f acc = some (acc ++ [q]) := by
        rcases h1 with ⟨rfl, rfl⟩ | ⟨r, rfl, ⟨hn, rfl⟩ | ⟨hn, x, hx, rfl⟩⟩
        · rfl
        · rw [setQueryFlag, ((decodeQuery_decodes D).skip r).2 hn]
        · rw [setQueryFlag, ((decodeQuery_decodes D).val r x).2 ⟨hn, hx⟩]
      rw [this]
      dsimp only
      rw [ih]
      simp
  have hact : c.readAction = some a := by
    unfold CliFlags.readAction
    rcases ha with ⟨h1, rfl⟩ | ⟨h1, rfl⟩ | ⟨r, h1, ⟨h2, rfl⟩ | ⟨h2, h3⟩⟩
    · rw [h1]
    · rw [h1]; rfl
    · rw [h1]
      simp only [setActionFlag, (decodeAction_decodes.skip r).2 h2]
    · rw [h1]
      simp only [setActionFlag, (decodeAction_decodes.val r a).2 ⟨h2, h3⟩]
  have hcalc : adHocOverlay D c = (if qs = [] then some none else match flagValue c.value with
      | none => none
      | some v => some (some (qs, { action := a, value := v }))) := by
    unfold adHocOverlay
    rw [hqs _ _ hq, hact]
    simp only [List.nil_append, List.isEmpty_iff]
    split
    · rfl
    · cases flagValue c.value <;> rfl
  rcases hcli with ⟨h1, h2⟩ | ⟨h1, v, hv, h2⟩
  · rw [if_pos h1] at hcalc
    exact .inl ⟨hcalc, h2⟩
  · have hfv : flagValue c.value = some v := by
      rcases hv with ⟨hv, rfl⟩ | hv <;> rw [hv] <;> rfl
    rw [if_neg h1, hfv] at hcalc
    exact .inr ⟨qs, _, hcalc, h2⟩

theorem setQueryFlag_some {D : Dec} {f : Flag} {acc qs : List (Option Query)} (h : setQueryFlag D f acc = some qs) :
    ∃ q, FlagQuery D f q ∧ qs = acc ++ [q] := by
  unfold setQueryFlag at h
  split at h
  · cases h
  · cases h; exact ⟨none, .inl ⟨rfl, rfl⟩, rfl⟩
  · rename_i r
    split at h
    · cases h
    · rename_i hq
      cases h
      exact ⟨none, .inr ⟨r, rfl, .inl ⟨((decodeQuery_decodes D).skip r).1 hq, rfl⟩⟩, rfl⟩
    · rename_i q hq
      cases h
      obtain ⟨h1, h2⟩ := ((decodeQuery_decodes D).val r q).1 hq
      exact ⟨some q, .inr ⟨r, rfl, .inr ⟨h1, q, h2, rfl⟩⟩, rfl⟩

theorem setQueryFlags_some {D : Dec} : ∀ {fs : List Flag} {acc qs : List (Option Query)}, setQueryFlags D fs acc = some qs →
    ∃ qs', List.Forall₂ (FlagQuery D) fs qs' ∧ qs = acc ++ qs' := by
  intro fs
  induction fs with
  | nil => intro acc qs h; cases h; exact ⟨[], .nil, by simp⟩
  | cons f fs ih =>
    intro acc qs h
    rw [setQueryFlags] at h
    split at h
    · rename_i acc' h1
      obtain ⟨q, h2, rfl⟩ := setQueryFlag_some h1
      obtain ⟨qs', h3, rfl⟩ := ih h
      exact ⟨q :: qs', .cons h2 h3, by simp⟩
    · cases h

theorem readAction_some {c : CliFlags} {a : Action} (h : c.readAction = some a) : FlagAction c.action a := by
  unfold CliFlags.readAction at h
  split at h
  · rename_i h1
    cases h
    exact .inl ⟨h1, rfl⟩
  · rename_i f h1
    unfold setActionFlag at h
    split at h
    · cases h
    · cases h; exact .inr (.inl ⟨h1, rfl⟩)
    · rename_i r
      refine .inr (.inr ⟨r, h1, ?_⟩)
      split at h
      · cases h
      · rename_i hb
        cases h
        exact .inl ⟨(decodeAction_decodes.skip r).1 hb, rfl⟩
      · rename_i b hb
        cases h
        exact .inr ((decodeAction_decodes.val r _).1 hb)

/-- The flags describe an overlay (or none) exactly if the program reads it from them. -/
theorem flagsDescribe_iff {D : Dec} {c : CliFlags} {cli : Option DOverlay} :
    FlagsDescribe D c cli ↔ ∃ x, adHocOverlay D c = some x ∧ cli = x.map (fun p => cliOverlay p.1 p.2) := by
  constructor
  · intro h
    rcases flags_read h with ⟨h1, h2⟩ | ⟨qs, o, h1, h2⟩
    · exact ⟨_, h1, h2⟩
    · exact ⟨_, h1, h2⟩
  · rintro ⟨x, hx, rfl⟩
    unfold adHocOverlay at hx
    split at hx
    · cases hx
    rename_i qs hq
    split at hx
    · cases hx
    rename_i a ha
    obtain ⟨qs', h1, h2⟩ := setQueryFlags_some hq
    rw [List.nil_append] at h2
    subst h2
    refine ⟨a, qs, readAction_some ha, h1, ?_⟩
    split at hx
    · rename_i he
      cases hx
      exact .inl ⟨List.isEmpty_iff.1 he, rfl⟩
    · rename_i he
      split at hx
      · cases hx
      · rename_i v hv
        cases hx
        refine .inr ⟨fun hc => he (by rw [hc]; rfl), v, ?_, rfl⟩
        unfold flagValue at hv
        split at hv
        · cases hv
        · rename_i h; cases hv; exact .inl ⟨h, rfl⟩
        · rename_i h; cases hv; exact .inr h

theorem flags_stand {D : Dec} {c : CliFlags} {P : Setup} {cli : Option DOverlay} (hm : FlagsLoaded D c P)
    (hf : FlagsDescribe D c cli) : P.adHoc.map P.obj = cli.map some := by
  rcases flags_read hf with ⟨h1, h2⟩ | ⟨qs, o, h1, h2⟩
  · rcases hm with ⟨_, h3⟩ | ⟨qs', o, p, h3, _⟩
    · rw [h3, h2]; rfl
    · rw [h1] at h3; cases h3
  · rcases hm with ⟨h3, _⟩ | ⟨qs', o', p, h3, h4, h5⟩
    · rw [h1] at h3; cases h3
    · rw [h1] at h3
      cases h3
      rw [h4, h2, Option.map_some, Option.map_some, h5]

theorem loaded_files {P : Setup} {common : List (Option DOverlay)} {files : List DFile} (hm : Loaded ⟨common, files.map some⟩ P) :
    (given P).map (Entry.deref P.obj) = files := by
  have := hm.filesRead
  rw [show (fun e => some (Entry.deref P.obj e)) = some ∘ Entry.deref P.obj from rfl, ← List.map_map] at this
  exact (List.map_injective_iff.2 (fun _ _ h => Option.some.inj h)) this

theorem loaded_stands {D : Dec} {c : CliFlags} {P : Setup} {T : Task} (hm : Loaded ⟨T.common, T.files.map some⟩ P)
    (hfl : FlagsLoaded D c P) (hf : FlagsDescribe D c T.cli) : Stands P T := by
  exact ⟨hm.overlaysRead, loaded_files hm, flags_stand hfl hf⟩

theorem inMemory_stands {D : Dec} {doc : Node} {c : CliFlags} {P : Setup} {T : Task} (hm : InMemory D doc c P)
    (hd : Describes D doc T.common T.files) (hf : FlagsDescribe D c T.cli) : ∃ i, Loaded i P ∧ Stands P T := by
  obtain ⟨⟨i, hi, hl⟩, hfl⟩ := hm
  have := instructionsAre_unique ((decodeInstructions_iff D doc i).1 hi) hd
  subst this
  exact ⟨_, hl, loaded_stands hl hfl hf⟩

theorem sound_of {i : DInstr} {P : Setup} (hm : Loaded i P) (env : Environment P) : Sound P where
  dir := env.dir
  fs := env.fs
  grow := env.grow
  common := hm.common
  overlays := hm.overlays
  documents := hm.documents

theorem from_loaded {i : DInstr} {P : Setup} {T : Task} (hm : Loaded i P) (hs : Stands P T)
    (env : Environment P) :
    ∃ N, ∀ fuel, N ≤ fuel →
    (T.Readable P → ∃ files, P.getInstructions fuel = .done files ∧
      ∀ s, Reach (P.run files) s → Returned s none →
        ∃ (result : Str → List Node) (text : Str → Option Str),
          (∀ p ∈ T.inputs P, T.FileResult P p (result p) ∧ rendering P.emit P.style (result p) = .ok (text p)) ∧
          (s.log.map (fun o => (o.name, o.text))).Perm
            ((T.inputs P).filterMap (fun p => (text p).map (fun t => (T.nameFor P p, t))))) ∧
    (¬ T.Readable P → ¬ T.Hangs P → P.getInstructions fuel = .err) ∧
    (T.Hangs P → P.getInstructions fuel = .running) := by
  have sound := sound_of hm env
  obtain ⟨N1, h1⟩ := C55_inputs P sound
  by_cases hr : T.Readable P
  · obtain ⟨N2, h2⟩ := C55_end_to_end P sound ((readable_deref hs.files).2 hr)
    refine ⟨max N1 N2, fun fuel hfuel => ⟨fun _ => ?_, fun h => absurd hr h,
      fun h => (h1 fuel (by omega)).2.2 ((hangs_deref hs.files).2 h)⟩⟩
    have := h2 fuel (by omega)
    simp only [fileResult_deref hs, nameFor_deref hs, inputs_deref hs] at this
    exact this
  · refine ⟨N1, fun fuel hfuel => ⟨fun h => absurd h hr, fun _ hh => ?_, fun h => (h1 fuel hfuel).2.2 ((hangs_deref hs.files).2 h)⟩⟩
    exact (h1 fuel hfuel).2.1 (fun h => hr ((readable_deref hs.files).1 h)) (fun h => hh ((hangs_deref hs.files).1 h))

theorem from_loaded_succeeds {i : DInstr} {P : Setup} {T : Task} (hm : Loaded i P)
    (hs : Stands P T) (env : Environment P) (hr : T.Readable P)
    (hok : ∀ p ∈ T.inputs P, ∃ docs t, T.FileResult P p docs ∧ rendering P.emit P.style docs = .ok t)
    (hw : ∀ log o, P.writeFails log o = false) : ∃ N, ∀ fuel, N ≤ fuel →
    ∃ files, P.getInstructions fuel = .done files ∧
    (¬ ∃ f : Nat → State, ∀ k, RStep (P.run files) (f k) (f (k + 1))) ∧
    ∀ s, Reach (P.run files) s → (∀ s', ¬ RStep (P.run files) s s') → Returned s none := by
  refine C55_succeeds P (sound_of hm env) ((readable_deref hs.files).2 hr) ?_ hw
  intro p hp
  rw [inputs_deref hs] at hp
  obtain ⟨docs, t, h1, h2⟩ := hok p hp
  exact ⟨docs, t, (fileResult_deref hs p docs).2 h1, h2⟩

theorem from_loaded_results {i : DInstr} {P : Setup} {T : Task} (hm : Loaded i P)
    (hs : Stands P T) (env : Environment P) (hr : T.Readable P) :
    ∃ N, ∀ fuel, N ≤ fuel → ∃ files, P.getInstructions fuel = .done files ∧
    ∀ s, Reach (P.run files) s →
      ∃ ps : List Str, ps.Nodup ∧ (∀ p ∈ ps, p ∈ T.inputs P) ∧
        List.Forall₂ (fun p o => o.name = T.nameFor P p ∧
          ∃ docs, T.FileResult P p docs ∧ rendering P.emit P.style docs = .ok (some o.text)) ps s.log := by
  have := C55_only_results P (sound_of hm env) ((readable_deref hs.files).2 hr)
  simp only [fileResult_deref hs, nameFor_deref hs, inputs_deref hs] at this
  exact this

theorem from_loaded_safe {i : DInstr} {P : Setup} {T : Task} (hm : Loaded i P)
    (hs : Stands P T) (env : Environment P) (hr : T.Readable P)
    (hok : ∀ p ∈ T.inputs P, ∃ docs t, T.FileResult P p docs ∧ rendering P.emit P.style docs = .ok t)
    (hw : ∀ log o, P.writeFails log o = false) : ∃ N, ∀ fuel, N ≤ fuel →
    ∃ files, P.getInstructions fuel = .done files ∧
    ∀ s, Reach (P.run files) s → s.crashed = false ∧ ∀ r, Returned s r → r = none := by
  refine C55_no_error P (sound_of hm env) ((readable_deref hs.files).2 hr) ?_ hw
  intro p hp
  rw [inputs_deref hs] at hp
  obtain ⟨docs, t, h1, h2⟩ := hok p hp
  exact ⟨docs, t, (fileResult_deref hs p docs).2 h1, h2⟩

theorem mayCrash_deref {P : Setup} {T : Task} (h : Stands P T) (p : Str) : Spec.MayCrash P p ↔ T.MayCrash P p := by
  unfold Spec.MayCrash Task.MayCrash
  simp only [contents_deref h, overlaysOn_deref h, fileResult_deref h]

theorem from_loaded_crash {i : DInstr} {P : Setup} {T : Task} (hm : Loaded i P)
    (hs : Stands P T) (env : Environment P) (hr : T.Readable P) : ∃ N, ∀ fuel, N ≤ fuel →
    ∃ files, P.getInstructions fuel = .done files ∧
    ∀ s, Reach (P.run files) s → s.crashed = true → ∃ p ∈ T.inputs P, T.MayCrash P p := by
  have := C55_crash P (sound_of hm env) ((readable_deref hs.files).2 hr)
  simp only [mayCrash_deref hs, inputs_deref hs] at this
  exact this

/-- **C65** From the parsed instructions file and the flags to the outputs: if
the file describes the task, whatever the schedule, a run that succeeds has put each
input through its overlays in order and written it under its name, once. A null item that
is met crashes the run, so that it does not succeed. -/
theorem C65_from_file (D : Dec) (doc : Node) (c : CliFlags) (P : Setup) (T : Task) (hm : InMemory D doc c P)
    (hd : Describes D doc T.common T.files) (hf : FlagsDescribe D c T.cli) (env : Environment P) :
    ∃ N, ∀ fuel, N ≤ fuel →
    (T.Readable P → ∃ files, P.getInstructions fuel = .done files ∧
      ∀ s, Reach (P.run files) s → Returned s none →
        ∃ (result : Str → List Node) (text : Str → Option Str),
          (∀ p ∈ T.inputs P, T.FileResult P p (result p) ∧ rendering P.emit P.style (result p) = .ok (text p)) ∧
          (s.log.map (fun o => (o.name, o.text))).Perm
            ((T.inputs P).filterMap (fun p => (text p).map (fun t => (T.nameFor P p, t))))) ∧
    (¬ T.Readable P → ¬ T.Hangs P → P.getInstructions fuel = .err) ∧
    (T.Hangs P → P.getInstructions fuel = .running) := by
  obtain ⟨_, hl, hs⟩ := inMemory_stands hm hd hf
  exact from_loaded hl hs env

/-- **C65** And it does succeed, whatever the schedule, if the overlays of every
input apply, every result can be rendered and no output fails. -/
theorem C65_succeeds (D : Dec) (doc : Node) (c : CliFlags) (P : Setup) (T : Task) (hm : InMemory D doc c P)
    (hd : Describes D doc T.common T.files) (hf : FlagsDescribe D c T.cli) (env : Environment P) (hr : T.Readable P)
    (hok : ∀ p ∈ T.inputs P, ∃ docs t, T.FileResult P p docs ∧ rendering P.emit P.style docs = .ok t)
    (hw : ∀ log o, P.writeFails log o = false) : ∃ N, ∀ fuel, N ≤ fuel →
    ∃ files, P.getInstructions fuel = .done files ∧
    (¬ ∃ f : Nat → State, ∀ k, RStep (P.run files) (f k) (f (k + 1))) ∧
    ∀ s, Reach (P.run files) s → (∀ s', ¬ RStep (P.run files) s s') → Returned s none := by
  obtain ⟨_, hl, hs⟩ := inMemory_stands hm hd hf
  exact from_loaded_succeeds hl hs env hr hok hw

/-- **C65** At any moment of a run, also of one that fails: what has been handed
out for writing are results of inputs under their names, at most once each. -/
theorem C65_only_results (D : Dec) (doc : Node) (c : CliFlags) (P : Setup) (T : Task) (hm : InMemory D doc c P)
    (hd : Describes D doc T.common T.files) (hf : FlagsDescribe D c T.cli) (env : Environment P) (hr : T.Readable P) :
    ∃ N, ∀ fuel, N ≤ fuel → ∃ files, P.getInstructions fuel = .done files ∧
    ∀ s, Reach (P.run files) s →
      ∃ ps : List Str, ps.Nodup ∧ (∀ p ∈ ps, p ∈ T.inputs P) ∧
        List.Forall₂ (fun p o => o.name = T.nameFor P p ∧
          ∃ docs, T.FileResult P p docs ∧ rendering P.emit P.style docs = .ok (some o.text)) ps s.log := by
  obtain ⟨_, hl, hs⟩ := inMemory_stands hm hd hf
  exact from_loaded_results hl hs env hr

/-- **C65** A crash, under whatever schedule, comes from an input that can make it: there is
a null among the overlays for one of its documents, or one crashes, or the rendering. -/
theorem C65_crash (D : Dec) (doc : Node) (c : CliFlags) (P : Setup) (T : Task) (hm : InMemory D doc c P)
    (hd : Describes D doc T.common T.files) (hf : FlagsDescribe D c T.cli) (env : Environment P) (hr : T.Readable P) :
    ∃ N, ∀ fuel, N ≤ fuel → ∃ files, P.getInstructions fuel = .done files ∧
    ∀ s, Reach (P.run files) s → s.crashed = true → ∃ p ∈ T.inputs P, T.MayCrash P p := by
  obtain ⟨_, hl, hs⟩ := inMemory_stands hm hd hf
  exact from_loaded_crash hl hs env hr

/-- **C65** The overlays an input gets are its own, for all inputs, exactly if no two inputs
have own overlays that fit into the spare room `append` leaves behind that of the command
line and differ at some position both have. In particular, if there is none on the command
line. -/
theorem C65_own_overlays (T : Task) (P : Setup) :
    ((∀ p ∈ T.inputs P, T.gets P p = T.own P p) ↔
      ∀ p ∈ T.inputs P, ∀ q ∈ T.inputs P, (T.own P p).length ≤ T.spare P → (T.own P q).length ≤ T.spare P →
        Agree (T.own P p) (T.own P q)) ∧
    (T.cli = none → ∀ p ∈ T.inputs P, T.gets P p = T.own P p) := by
  have key := received_eq_iff (T.spare P) ((T.inputs P).map (T.own P))
  simp only [List.forall_mem_map] at key
  refine ⟨key, fun hn => key.2 ?_⟩
  have h0 : T.spare P = 0 := by unfold Task.spare; rw [hn]; rfl
  intro p _ q _ hp _ j x y hx _
  rw [h0] at hp
  rw [List.eq_nil_of_length_eq_zero (by omega : (T.own P p).length = 0)] at hx
  cases hx

/-! ### Such a memory exists for every task -/

/-- The overlay behind a pointer, in a layout for the task `T`. -/
def Spec.Task.objAt (T : Task) (p : Nat) : Option DOverlay :=
  match p.unpair with
  | (0, k) => T.common.getD k none
  | (1, q) => ((T.files[q.unpair.1]?.map (·.overlays)).getD []).getD q.unpair.2 none
  | (2, q) =>
    (((((T.files[q.unpair.1]?.map (·.documents)).getD [])[q.unpair.2.unpair.1]?).join.map (·.overlays)).getD []).getD q.unpair.2.unpair.2 none
  | _ => T.cli

/-- The document behind a pointer. -/
def Spec.Task.docAt (T : Task) (p : Nat) : Option DocObj :=
  match (((T.files[p.unpair.1]?.map (·.documents)).getD [])[p.unpair.2]?).join with
  | some d => some { name := d.name, path := d.path, overlays := (List.range d.overlays.length).map (fun k => Nat.pair 2 (Nat.pair p.unpair.1 (Nat.pair p.unpair.2 k))) }
  | none => none

/-- The entries of the layout, from entry `j` on. -/
def layoutEntries : Nat → List DFile → List (Entry Slice Slice)
  | _, [] => []
  | j, y :: ys =>
    { name := y.name, path := y.path, outputPath := y.outputPath, nodes := y.nodes,
      overlays := ⟨j + 1, y.overlays.length, y.overlays.length⟩,
      documents := ⟨j, y.documents.length, y.documents.length⟩ } :: layoutEntries (j + 1) ys

/-- The lists of the layout. -/
def Spec.Task.instr (T : Task) : Instr where
  ov := ⟨T.files.length + 1, fun a i => match a with
    | 0 => some (Nat.pair 0 i)
    | j + 1 => some (Nat.pair 1 (Nat.pair j i))⟩
  dc := ⟨T.files.length, fun j i => some (Nat.pair j i)⟩
  common := ⟨0, T.common.length, T.common.length⟩
  entries := layoutEntries 0 T.files

/-- The setup `P` with the task `T` in memory. -/
def Spec.Task.loaded (T : Task) (P : Setup) : Setup :=
  { P with obj := T.objAt, docObj := T.docAt, instr := T.instr, adHoc := T.cli.map (fun _ => Nat.pair 3 0) }

theorem filterMap_total {α β : Type} (f : α → β) (l : List α) : l.filterMap (fun x => some (f x)) = l.map f :=
  congrFun List.filterMap_eq_map' l

theorem map_range_getD {α : Type} (l : List α) (d : α) : (List.range l.length).map (fun k => l.getD k d) = l := by
  apply List.ext_getElem?
  intro i
  rw [List.getElem?_map]
  by_cases h : i < l.length
  · rw [List.getElem?_range h]; simp [List.getD, h]
  · rw [List.getElem?_eq_none (by simpa using h), List.getElem?_eq_none (by omega)]; rfl

theorem loaded_common (T : Task) (P : Setup) :
    ((T.loaded P).instr.ov.read (T.loaded P).instr.common).map (T.loaded P).obj = T.common := by
  show ((List.range T.common.length).filterMap (fun i => some (Nat.pair 0 i))).map T.objAt = T.common
  rw [filterMap_total, List.map_map]
  rw [show (T.objAt ∘ fun i => Nat.pair 0 i) = (fun k => T.common.getD k none) from ?_, map_range_getD]
  funext k
  simp [Task.objAt, Nat.unpair_pair]

theorem loaded_docs (T : Task) (j : Nat) (y : DFile) (h : T.files[j]? = some y) :
    (((List.range y.documents.length).filterMap (fun i => some (Nat.pair j i))).map T.docAt).map
      (Option.map (DocObj.deref T.objAt)) = y.documents := by
  rw [filterMap_total, List.map_map, List.map_map]
  conv => rhs; rw [← map_range_getD y.documents none]
  apply List.map_congr_left
  intro i hi
  have hi : i < y.documents.length := by simpa using hi
  simp only [Function.comp_apply, Task.docAt, Nat.unpair_pair, h, Option.map_some, Option.getD_some]
  simp only [List.getD, List.getElem?_eq_getElem hi, Option.getD_some, Option.join_some]
  cases hd : y.documents[i] with
  | none => rfl
  | some d =>
    simp only [Option.map_some, DocObj.deref, List.map_map]
    have : (List.range d.overlays.length).map (T.objAt ∘ fun k => Nat.pair 2 (Nat.pair j (Nat.pair i k))) = d.overlays := by
      conv => rhs; rw [← map_range_getD d.overlays none]
      apply List.map_congr_left
      intro k _
      simp [Task.objAt, Nat.unpair_pair, h, List.getElem?_eq_getElem hi, hd]
    rw [this]

theorem loaded_overlays (T : Task) (j : Nat) (y : DFile) (h : T.files[j]? = some y) :
    ((List.range y.overlays.length).filterMap (fun i => some (Nat.pair 1 (Nat.pair j i)))).map T.objAt = y.overlays := by
  rw [filterMap_total, List.map_map]
  conv => rhs; rw [← map_range_getD y.overlays none]
  apply List.map_congr_left
  intro i _
  simp [Task.objAt, Nat.unpair_pair, h]

theorem loaded_entries (T : Task) : ∀ (ys : List DFile) (j : Nat),
    (∀ k y, ys[k]? = some y → T.files[j + k]? = some y) →
    ((layoutEntries j ys).map (Entry.read T.instr.ov T.instr.dc T.docAt)).map (Entry.deref T.objAt) = ys := by
  intro ys
  induction ys with
  | nil => intro j _; rfl
  | cons y ys ih =>
    intro j h
    have h0 := h 0 y rfl
    rw [layoutEntries, List.map_cons, List.map_cons, ih (j + 1) (fun k z hz => by
      have := h (k + 1) z hz
      rwa [show j + (k + 1) = j + 1 + k by omega] at this)]
    congr 1
    have e1 := loaded_overlays T j y h0
    have e2 := loaded_docs T j y h0
    obtain ⟨a, b, c, d, e, f⟩ := y
    unfold Entry.deref Entry.read
    simp only [Mem.read, Task.instr]
    simp only at e1 e2
    rw [e1, e2]

theorem layout_mem {e : Entry Slice Slice} : ∀ (ys : List DFile) (j : Nat), e ∈ layoutEntries j ys →
    ∃ k y, k < ys.length ∧ e.overlays = ⟨j + k + 1, y, y⟩ ∧ ∃ z, e.documents = ⟨j + k, z, z⟩ := by
  intro ys
  induction ys with
  | nil => intro j h; simp [layoutEntries] at h
  | cons y ys ih =>
    intro j h
    rw [layoutEntries, List.mem_cons] at h
    rcases h with rfl | h
    · exact ⟨0, _, by simp, rfl, _, rfl⟩
    · obtain ⟨k, n, h1, h2, m, h3⟩ := ih (j + 1) h
      exact ⟨k + 1, n, by simpa using h1, by rw [h2]; congr 1; omega, m, by rw [h3]; congr 1; omega⟩

theorem loaded_loaded (P : Setup) (T : Task) : Loaded ⟨T.common, T.files.map some⟩ (T.loaded P) where
  overlaysRead := loaded_common T P
  filesRead := by
    rw [show (fun e => some (Entry.deref (T.loaded P).obj e)) = some ∘ Entry.deref (T.loaded P).obj from rfl, ← List.map_map,
      show (given (T.loaded P)).map (Entry.deref (T.loaded P).obj) = T.files from
        loaded_entries T T.files 0 (fun k y h => by simpa using h)]
  common := ⟨⟨Nat.le_refl _, fun _ => Nat.succ_pos _, fun _ _ => rfl⟩, rfl⟩
  overlays := by
    intro e he
    obtain ⟨k, n, h1, h2, _⟩ := layout_mem T.files 0 he
    rw [h2]
    exact ⟨⟨Nat.le_refl _, fun _ => by show 0 + k + 1 < T.files.length + 1; omega, fun _ _ => rfl⟩, rfl⟩
  documents := by
    intro e he
    obtain ⟨k, _, h1, _, n, h2⟩ := layout_mem T.files 0 he
    rw [h2]
    exact ⟨⟨Nat.le_refl _, fun _ => by show 0 + k < T.files.length; omega, fun _ _ => rfl⟩, rfl⟩

theorem flags_loaded {D : Dec} {c : CliFlags} (P : Setup) {T : Task} (hf : FlagsDescribe D c T.cli) : FlagsLoaded D c (T.loaded P) := by
  rcases flags_read hf with ⟨h1, h2⟩ | ⟨qs, o, h1, h2⟩
  · left
    exact ⟨h1, by show T.cli.map _ = none; rw [h2]; rfl⟩
  · right
    refine ⟨qs, o, Nat.pair 3 0, h1, by show T.cli.map _ = _; rw [h2]; rfl, ?_⟩
    show T.objAt _ = _
    simp [Task.objAt, Nat.unpair_pair, h2]

/-- **C65** For every task that an instructions file and flags describe, there is a memory
that holds it: `InMemory` is not an empty assumption. -/
theorem C65_memory_exists (D : Dec) (doc : Node) (c : CliFlags) (P : Setup) (T : Task)
    (hd : Describes D doc T.common T.files) (hf : FlagsDescribe D c T.cli) : InMemory D doc c (T.loaded P) :=
  ⟨⟨_, (decodeInstructions_iff D doc _).2 hd, loaded_loaded P T⟩, flags_loaded P hf⟩

/-- The overlay of the file entry in `exFile`. -/
def exOwn : DOverlay where
  base := { name := c!"metadata", query := [⟨c!"metadata", fun n => [n]⟩], action := .delete, documentIndex := some [1] }

/-- The common overlay in `exFile`. -/
def exCommon : DOverlay where
  base := { name := c!"n", query := [⟨c!"a", fun n => [n]⟩, ⟨c!"b", fun n => [n]⟩], action := .merge, value := sc c!"x" }

/-- The task that `exFile` and `-q c -x delete` describe. -/
def exTask : Task where
  common := [some exCommon]
  files := [{ path := c!"a.yaml", overlays := [some exOwn] }]
  cli := some { base := { query := [⟨c!"c", fun n => [n]⟩], action := .delete, value := zeroNode } }

/-- `-q c -x delete`. -/
def exFlags : CliFlags := { queries := [.root (sc c!"c")], action := some (.root (sc c!"delete")), value := .empty }

example : Describes exDec exFile exTask.common exTask.files ∧ FlagsDescribe exDec exFlags exTask.cli := by
  constructor
  · exact (decodeInstructions_iff exDec exFile _).1 rfl
  · have hq := ((decodeQuery_decodes exDec).val (sc c!"c") _).1 rfl
    have ha := (decodeAction_decodes.val (sc c!"delete") _).1 rfl
    exact ⟨.delete, [some ⟨c!"c", fun n => [n]⟩], .inr (.inr ⟨_, rfl, .inr ha⟩), .cons (.inr ⟨_, rfl, .inr ⟨hq.1, _, hq.2, rfl⟩⟩) .nil,
      .inr ⟨by simp, zeroNode, .inl ⟨rfl, rfl⟩, rfl⟩⟩

end Yot
