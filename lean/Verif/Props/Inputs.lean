import Verif.Props.Startup
/-
C74: what the inputs are, and standard input as one.
-/
namespace Yot
open Spec

theorem mem_firsts (x : Str) : ∀ l : List Str, x ∈ firsts l ↔ x ∈ l := by
  intro l
  induction l with
  | nil => simp [firsts]
  | cons y l ih =>
    rw [firsts, List.mem_cons, List.mem_filter, ih, List.mem_cons]
    by_cases h : x = y <;> simp [h]

theorem expand_stdin (fs : Fs) (dir : Str) (y : DFile) (h : y.path = ['-']) : expand fs dir [y] = [y] := by
  have : ¬ IsDirEntry fs dir y := fun hd => hd.1 h
  simp [expand, this, located, h]

/-- **C74** With `--path -` what is on standard input is an input of the run, and its
documents are those on standard input (without comments on request); the result is written as
`stdin.yaml` in the output directory.  (Unless the instructions list `-` themselves: `C74_listed`.) -/
theorem C74_standard_input (M : Machine) (T : Task) (h : M.path = ['-'])
    (hno : ∀ e ∈ expand M.fs M.dir T.files, e.path ≠ ['-']) :
    ['-'] ∈ T.inputs (settingsOf M) ∧
    T.contents (settingsOf M) ['-'] =
      (if (settingsOf M).removeComments then (M.stdin2.getD []).map removeComments else M.stdin2.getD []) ∧
    T.nameFor (settingsOf M) ['-'] = pathJoin [M.text c!"outputDirectory", c!"stdin.yaml"] := by
  have hc : Task.commandLine (settingsOf M).adHocPath = [{ name := c!"StdIn", path := ['-'], outputPath := c!"stdin.yaml" }] := by
    show Task.commandLine M.path = _
    rw [h]
    rfl
  have hl : T.listed (settingsOf M) = expand M.fs M.dir T.files ++ [{ name := c!"StdIn", path := ['-'], outputPath := c!"stdin.yaml" }] := by
    unfold Task.listed
    rw [hc, expand_stdin _ _ _ rfl]
    rfl
  have hnone : entriesFor ['-'] (expand M.fs M.dir T.files) = [] := by
    unfold entriesFor
    rw [List.filter_eq_nil_iff]
    intro e he
    simpa using hno e he
  refine ⟨?_, ?_, ?_⟩
  · unfold Task.inputs
    rw [mem_firsts, hl]
    simp
  · unfold Task.contents documentsOf
    dsimp only
    rw [show (settingsOf M).fs = M.fs from rfl, show (settingsOf M).dir = M.dir from rfl, hnone]
    rw [show (settingsOf M).read2 ['-'] = M.stdin2 from rfl]
    rfl
  · unfold Task.nameFor
    rw [hl]
    have : entriesFor ['-'] (expand M.fs M.dir T.files ++ [({ name := c!"StdIn", path := ['-'], outputPath := c!"stdin.yaml" } : DFile)]) =
        [{ name := c!"StdIn", path := ['-'], outputPath := c!"stdin.yaml" }] := by
      unfold entriesFor at hnone ⊢
      rw [List.filter_append, hnone]
      rfl
    rw [this]
    have : lastGiven ([({ name := c!"StdIn", path := ['-'], outputPath := c!"stdin.yaml" } : DFile)].map (·.outputPath)) = c!"stdin.yaml" := by decide
    rw [this]
    dsimp only
    have : ∀ pre : Str, outputPathFor pre ({ path := ['-'], outputPath := c!"stdin.yaml" } : DFile) = c!"stdin.yaml" := by
      intro pre
      unfold outputPathFor
      rw [if_neg (by decide), if_neg (by decide)]
    rw [this]
    unfold outputName
    rw [if_neg (by simp [isAbs])]
    rfl

/-- **C74** Any other input is a file, and its documents are those in the file at the start. -/
theorem C74_file (M : Machine) (T : Task) (p : Str) (h : p ≠ ['-']) (hn : ∀ e ∈ T.files, e.nodes = []) :
    T.contents (settingsOf M) p =
      (let ds := ((M.disk (M.locate p)).bind M.parseAll).getD []
       if (settingsOf M).removeComments then ds.map removeComments else ds) := by
  have hd : documentsOf (settingsOf M).read1 (settingsOf M).read2 (expand M.fs M.dir T.files) p = ((M.disk (M.locate p)).bind M.parseAll).getD [] := by
    have r1 : (settingsOf M).read1 p = (M.disk (M.locate p)).bind M.parseAll := if_neg h
    have r2 : (settingsOf M).read2 p = (M.disk (M.locate p)).bind M.parseAll := if_neg h
    unfold documentsOf
    rw [r1, r2]
    cases he : (entriesFor p (expand M.fs M.dir T.files)).head? with
    | none => rfl
    | some e =>
      have hm := List.mem_of_head? he
      have hm := (List.mem_filter.1 hm).1
      have : e.nodes = [] := by
        unfold expand at hm
        rcases List.mem_append.1 hm with hm | hm
        · obtain ⟨y, hy, rfl⟩ := List.mem_map.1 hm
          have := hn y (List.mem_filter.1 hy).1
          unfold located
          split <;> exact this
        · obtain ⟨y, hy, he⟩ := List.mem_flatMap.1 hm
          obtain ⟨f, hf, rfl⟩ := List.mem_map.1 he
          rfl
      dsimp only
      rw [this]
      rfl
  unfold Task.contents
  dsimp only
  rw [show (settingsOf M).fs = M.fs from rfl, show (settingsOf M).dir = M.dir from rfl, hd]

/-- **C74** Standard input listed under `yamlFiles`: its documents are what it gives then. -/
theorem C74_listed (M : Machine) (T : Task) (before after : List DFile) (e : DFile) (hf : T.files = before ++ e :: after)
    (he : e.path = ['-']) (hn : e.nodes = [])
    (hb : ∀ y ∈ before, y.path ≠ ['-'] ∧ resolvePath M.dir y.path ≠ ['-']) :
    ['-'] ∈ T.inputs (settingsOf M) ∧
    T.contents (settingsOf M) ['-'] =
      (if (settingsOf M).removeComments then (M.stdin1.getD []).map removeComments else M.stdin1.getD []) := by
  have hnd : ¬ IsDirEntry M.fs M.dir e := fun hd => hd.1 he
  have hloc : located M.dir e = e := by unfold located; rw [if_pos he]
  have hx : ∃ l1 l2, expand M.fs M.dir T.files = l1 ++ e :: l2 ∧ ∀ y ∈ l1, y.path ≠ ['-'] := by
    refine ⟨(before.filter (fun y => ¬ IsDirEntry M.fs M.dir y)).map (located M.dir), ?_⟩
    unfold expand
    rw [hf, List.filter_append, List.filter_cons, if_pos (by simpa using hnd), List.map_append, List.map_cons, hloc]
    refine ⟨_, by rw [List.append_assoc, List.cons_append], ?_⟩
    intro y hy
    obtain ⟨z, hz, rfl⟩ := List.mem_map.1 hy
    obtain ⟨h1, h2⟩ := hb z (List.mem_filter.1 hz).1
    unfold located
    rw [if_neg h1]
    exact h2
  obtain ⟨l1, l2, hx, h1⟩ := hx
  refine ⟨?_, ?_⟩
  · unfold Task.inputs Task.listed
    rw [mem_firsts, show (settingsOf M).fs = M.fs from rfl, show (settingsOf M).dir = M.dir from rfl, hx]
    simp [he]
  · have : (entriesFor ['-'] (expand M.fs M.dir T.files)).head? = some e := by
      rw [hx]
      unfold entriesFor
      rw [List.filter_append, List.filter_eq_nil_iff.2 (by intro y hy; simpa using h1 y hy), List.filter_cons, if_pos (by simpa using he)]
      rfl
    unfold Task.contents documentsOf
    dsimp only
    rw [show (settingsOf M).fs = M.fs from rfl, show (settingsOf M).dir = M.dir from rfl, this]
    dsimp only
    rw [hn, List.nil_append]
    rw [show (settingsOf M).read1 ['-'] = M.stdin1 from rfl]

/-- `yot -p -` without instructions. -/
def Ex.stdinMachine : Machine := { Ex.machine with instructionsFile := [], path := c!"-", stdin2 := some [Ex.dc (Ex.sc c!"x")] }

example : Task.inputs ⟨[], [], none⟩ (settingsOf Ex.stdinMachine) = [['-']] ∧
    Task.contents ⟨[], [], none⟩ (settingsOf Ex.stdinMachine) ['-'] = [Ex.dc (Ex.sc c!"x")] ∧
    Task.nameFor ⟨[], [], none⟩ (settingsOf Ex.stdinMachine) ['-'] = c!"/o/stdin.yaml" := by
  have := C74_standard_input Ex.stdinMachine ⟨[], [], none⟩ rfl (by simp [expand])
  refine ⟨by decide, ?_, by rw [this.2.2]; decide⟩
  rw [this.2.1, if_neg (by decide)]
  rfl

/-- The hypotheses of `C74_file` and `C74_listed`. -/
example : Ex.machineTask.contents (settingsOf Ex.machine) c!"/w/x.yaml" = [(Ex.dc (Ex.mp [Ex.sc c!"k", Ex.sc c!"old"])).label] := by
  have h := C74_file Ex.machine Ex.machineTask c!"/w/x.yaml" (by decide) (by simp [Ex.machineTask])
  have hr : (settingsOf Ex.machine).removeComments = false := by decide
  have hd : (Ex.machine.disk (Ex.machine.locate c!"/w/x.yaml")) = some c!"X" := by decide
  refine h.trans ?_
  simp only [hr, hd]
  decide

/-- Two entries, the second being standard input. -/
def Ex.twoFiles : List DFile := [{ path := c!"x.yaml", overlays := [], documents := [] }, { path := c!"-", overlays := [], documents := [] }]

example (T : Task) (h : T.files = Ex.twoFiles) : ['-'] ∈ T.inputs (settingsOf Ex.machine) := by
  refine (C74_listed Ex.machine T (Ex.twoFiles.take 1) (Ex.twoFiles.drop 2) { path := c!"-", overlays := [], documents := [] } h rfl rfl ?_).1
  intro y hy
  rw [List.mem_singleton.1 hy]
  exact ⟨by decide, by decide⟩

end Yot
