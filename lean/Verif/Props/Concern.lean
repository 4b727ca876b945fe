import Verif.Spec.Concern
import Verif.Props.Process
/-
C99: only the files that are named matter.
-/
namespace Yot
open Spec

theorem expandLoop_same {O D : Type} (fs fs' : Fs) (dir : Str) (G : Str → Prop) (h : ∀ p, LooksAt fs dir G p → fs' p = fs p) :
    ∀ (fuel : Nat) (done ys : List (Entry O D)), (∀ y ∈ ys, y.path ≠ ['-'] → LooksAt fs dir G (resolvePath dir y.path)) →
      expandLoop fs' dir fuel done ys = expandLoop fs dir fuel done ys := by
  intro fuel
  induction fuel with
  | zero => intro done ys _; cases ys <;> rfl
  | succ n ih =>
    intro done ys hy
    cases ys with
    | nil => rfl
    | cons y ys =>
      have hys : ∀ z ∈ ys, z.path ≠ ['-'] → LooksAt fs dir G (resolvePath dir z.path) := fun z hz => hy z (List.mem_cons_of_mem _ hz)
      rw [expandLoop, expandLoop]
      split
      · exact ih _ _ hys
      · rename_i hd
        have hl := hy y (List.mem_cons_self ..) hd
        have he := h _ hl
        have h1 : isDirectory fs' (resolvePath dir y.path) = isDirectory fs (resolvePath dir y.path) := by simp only [isDirectory, he]
        have h2 : getFileNames fs' (resolvePath dir y.path) = getFileNames fs (resolvePath dir y.path) := by simp only [getFileNames, he]
        simp only [h1, h2]
        split
        · rfl
        · exact ih _ _ hys
        · rename_i hdir
          split
          · rfl
          · refine ih _ _ (fun z hz hzd => ?_)
            rcases List.mem_append.1 hz with hz | hz
            · exact hys z hz hzd
            · obtain ⟨q, hq, rfl⟩ := List.mem_map.1 hz
              exact .found _ _ hl hdir hq

theorem expandLoopN_same (fs fs' : Fs) (dir : Str) (G : Str → Prop) (h : ∀ p, LooksAt fs dir G p → fs' p = fs p) :
    ∀ (fuel : Nat) (done : List DFile) (ys : List (Option DFile)), (∀ y, some y ∈ ys → y.path ≠ ['-'] → LooksAt fs dir G (resolvePath dir y.path)) →
      expandLoopN fs' dir fuel done ys = expandLoopN fs dir fuel done ys := by
  intro fuel
  induction fuel with
  | zero => intro done ys _; cases ys <;> simp [expandLoopN]
  | succ n ih =>
    intro done ys hy
    match ys with
    | [] => simp [expandLoopN]
    | none :: ys => simp [expandLoopN]
    | some y :: ys =>
      have hys : ∀ z, some z ∈ ys → z.path ≠ ['-'] → LooksAt fs dir G (resolvePath dir z.path) := fun z hz => hy z (List.mem_cons_of_mem _ hz)
      rw [expandLoopN, expandLoopN]
      split
      · exact ih _ _ hys
      · rename_i hd
        have hl := hy y (List.mem_cons_self ..) hd
        have he := h _ hl
        have h1 : isDirectory fs' (resolvePath dir y.path) = isDirectory fs (resolvePath dir y.path) := by simp only [isDirectory, he]
        have h2 : getFileNames fs' (resolvePath dir y.path) = getFileNames fs (resolvePath dir y.path) := by simp only [getFileNames, he]
        simp only [h1, h2]
        split
        · rfl
        · exact ih _ _ hys
        · rename_i hdir
          split
          · rfl
          · refine ih _ _ (fun z hz hzd => ?_)
            rcases List.mem_append.1 hz with hz | hz
            · exact hys z hz hzd
            · obtain ⟨q, hq, hq'⟩ := List.mem_map.1 hz
              cases hq'
              exact .found _ _ hl hdir hq

/-- The paths of the entries after expansion. -/
theorem expandLoop_looks {O D : Type} (fs : Fs) (dir : Str) (G : Str → Prop) :
    ∀ (fuel : Nat) (done ys es : List (Entry O D)), (∀ y ∈ ys, y.path ≠ ['-'] → LooksAt fs dir G (resolvePath dir y.path)) →
      expandLoop fs dir fuel done ys = .done es →
      ∀ e ∈ es, e ∈ done ∨ e.path = ['-'] ∨ (LooksAt fs dir G e.path ∧ isDirectory fs e.path = some false) := by
  intro fuel
  induction fuel with
  | zero =>
    intro done ys es _ h e he
    cases ys with
    | nil => simp only [expandLoop, Expanded.done.injEq] at h; subst h; exact .inl he
    | cons y ys => simp [expandLoop] at h
  | succ n ih =>
    intro done ys es hy h e he
    cases ys with
    | nil => simp only [expandLoop, Expanded.done.injEq] at h; subst h; exact .inl he
    | cons y ys =>
      have hys : ∀ z ∈ ys, z.path ≠ ['-'] → LooksAt fs dir G (resolvePath dir z.path) := fun z hz => hy z (List.mem_cons_of_mem _ hz)
      rw [expandLoop] at h
      split at h
      · rename_i hd
        rcases ih _ _ _ hys h e he with he | he
        · rcases List.mem_append.1 he with he | he
          · exact .inl he
          · rw [List.mem_singleton.1 he]; exact .inr (.inl hd)
        · exact .inr he
      · rename_i hd
        have hl := hy y (List.mem_cons_self ..) hd
        dsimp only at h
        split at h
        · cases h
        · rename_i hdir
          rcases ih _ _ _ hys h e he with he | he
          · rcases List.mem_append.1 he with he | he
            · exact .inl he
            · rw [List.mem_singleton.1 he]; exact .inr (.inr ⟨hl, hdir⟩)
          · exact .inr he
        · rename_i hdir
          split at h
          · cases h
          · refine ih _ _ _ (fun z hz hzd => ?_) h e he
            rcases List.mem_append.1 hz with hz | hz
            · exact hys z hz hzd
            · obtain ⟨q, hq, rfl⟩ := List.mem_map.1 hz
              exact .found _ _ hl hdir hq

theorem mergeDupS_paths (grow : Nat → Nat → Nat) : ∀ (ys : List (Entry Slice Slice)) (ov dc : Mem Nat) (done : List (Entry Slice Slice)) (p : Str),
    p ∈ (mergeDupS grow ov dc done ys).files.map (·.path) → p ∈ done.map (·.path) ∨ p ∈ ys.map (·.path)
  | [], _, _, _, _, h => .inl h
  | y :: ys, ov, dc, done, p, h => by
    rw [mergeDupS] at h
    split at h
    · rcases mergeDupS_paths grow ys _ _ _ p h with h | h
      · rw [absorbS_paths] at h; exact .inl h
      · exact .inr (List.mem_cons_of_mem _ h)
    · rcases mergeDupS_paths grow ys _ _ _ p h with h | h
      · rw [List.map_append, List.mem_append] at h
        rcases h with h | h
        · exact .inl h
        · rw [List.mem_singleton.1 h]; exact .inr (List.mem_cons_self ..)
      · exact .inr (List.mem_cons_of_mem _ h)

theorem readAll_same {O D : Type} (r r' : Str → Option (List Node)) : ∀ (ys : List (Entry O D)), (∀ p ∈ ys.map (·.path), r' p = r p) →
    readAll r' ys = readAll r ys
  | [], _ => rfl
  | y :: ys, h => by
    rw [readAll, readAll, h _ (List.mem_cons_self ..), readAll_same r r' ys (fun p hp => h p (List.mem_cons_of_mem _ hp))]

/-- Listing and reading the inputs, with other files where the program does not look. -/
theorem getInstructions_same (P : Setup) (fs' : Fs) (r1 r2 : Str → Option (List Node)) (G : Str → Prop)
    (hG : ∀ y ∈ P.instr.entries, G y.path) (hp : P.adHocPath ≠ [] → G P.adHocPath)
    (hfs : ∀ p, LooksAt P.fs P.dir G p → fs' p = P.fs p)
    (h1 : ∀ p, p = ['-'] ∨ (LooksAt P.fs P.dir G p ∧ isDirectory P.fs p = some false) → r1 p = P.read1 p)
    (h2 : ∀ p, p = ['-'] ∨ (LooksAt P.fs P.dir G p ∧ isDirectory P.fs p = some false) → r2 p = P.read2 p) (fuel : Nat) :
    Setup.getInstructions { P with fs := fs', read1 := r1, read2 := r2 } fuel = P.getInstructions fuel := by
  have hy : ∀ y ∈ P.instr.entries, y.path ≠ ['-'] → LooksAt P.fs P.dir G (resolvePath P.dir y.path) := fun y hm hd => .given _ (hG y hm) hd
  have ha : Setup.adHocFiles { P with fs := fs', read1 := r1, read2 := r2 } fuel = P.adHocFiles fuel := by
    simp only [Setup.adHocFiles]
    split
    · rfl
    · rename_i hne
      have hz : ∀ y ∈ [P.adHocEntry], y.path ≠ ['-'] → LooksAt P.fs P.dir G (resolvePath P.dir y.path) := by
        intro y hm hd
        rw [List.mem_singleton.1 hm] at hd ⊢
        exact .given _ (hp hne) hd
      have he : Setup.adHocEntry { P with fs := fs', read1 := r1, read2 := r2 } = P.adHocEntry := rfl
      rw [he, expandLoop_same P.fs fs' P.dir G hfs fuel [] [P.adHocEntry] hz]
      cases hx : expandLoop P.fs P.dir fuel [] [P.adHocEntry] with
      | err => rfl
      | running => rfl
      | done es =>
        have hl := expandLoop_looks P.fs P.dir G fuel [] _ es hz hx
        dsimp only
        rw [readAll_same P.read2 r2 es (fun p hpm => h2 p ?_)]
        obtain ⟨e, he, rfl⟩ := List.mem_map.1 hpm
        rcases hl e he with h | h
        · cases h
        · exact h
  simp only [Setup.getInstructions]
  rw [expandLoop_same P.fs fs' P.dir G hfs fuel [] P.instr.entries hy]
  cases hx : expandLoop P.fs P.dir fuel [] P.instr.entries with
  | err => rfl
  | running => rfl
  | done es =>
    have hl := expandLoop_looks P.fs P.dir G fuel [] _ es hy hx
    dsimp only
    rw [readAll_same P.read1 r1 _ (fun p hpm => h1 p ?_), ha]
    · rcases mergeDupS_paths _ _ _ _ _ p hpm with h | h
      · cases h
      · obtain ⟨e, he, rfl⟩ := List.mem_map.1 h
        rcases hl e he with h | h
        · cases h
        · exact h

section
variable {M M' : Machine}

theorem Spec.SameFiles.instructions (h : SameFiles M M') : M'.instructions = M.instructions ∧
    (M.instructionsFile ≠ [] → M'.instructionsText = M.instructionsText) := by
  obtain ⟨⟨d, fs, c, rfl⟩, -, hc, -⟩ := h
  have ht : M.instructionsFile ≠ [] → Machine.instructionsText { M with disk := d, fs := fs, cwd := c } = M.instructionsText := by
    intro hi
    have h1 : d (Machine.locate { M with disk := d, fs := fs, cwd := c } M.instructionsFile) = M.disk (M.locate M.instructionsFile) := hc _ (.instructions hi)
    have hs : Machine.stream { M with disk := d, fs := fs, cwd := c } M.instructionsFile = M.stream M.instructionsFile := by
      simp only [Machine.stream]
      split
      · rfl
      · exact h1
    have hv : ∀ vs, M.valueFiles = some vs → Machine.valueNodes { M with disk := d, fs := fs, cwd := c } vs = M.valueNodes vs := by
      intro vs hvs
      have : ∀ ws, ws ⊆ vs → Machine.valueNodes { M with disk := d, fs := fs, cwd := c } ws = M.valueNodes ws := by
        intro ws
        induction ws with
        | nil => intro _; rfl
        | cons f ws ih =>
          intro hsub
          have hf : Machine.stream { M with disk := d, fs := fs, cwd := c } f = M.stream f := by
            simp only [Machine.stream]
            split
            · rfl
            · rename_i hd
              exact hc _ (.values vs f hi hvs (hsub (List.mem_cons_self ..)) hd)
          rw [Machine.valueNodes, Machine.valueNodes, hf, ih (fun x hx => hsub (List.mem_cons_of_mem _ hx))]
      exact this vs (fun _ h => h)
    unfold Machine.instructionsText
    cases hvf : M.valueFiles with
    | none =>
      simp only [hvf] at hs
      dsimp only
      rw [hs]
    | some vs =>
      have hv := hv vs hvf
      simp only [hvf] at hv
      dsimp only
      rw [hv]
      have h1' : d (Machine.locate { M with disk := d, fs := fs, cwd := c } M.instructionsFile) = M.disk (M.locate M.instructionsFile) := h1
      simp only [hvf] at h1'
      rw [h1']
  refine ⟨?_, ht⟩
  unfold Machine.instructions
  by_cases hi : M.instructionsFile = []
  · simp only [hi, if_pos]
  · simp only [hi, if_neg, not_false_eq_true]
    rw [ht hi]

theorem Spec.SameFiles.pathGiven (h : SameFiles M M') : PathGiven M' = PathGiven M := by
  have hi := h.instructions.1
  obtain ⟨⟨d, fs, c, rfl⟩, -, -, -⟩ := h
  funext p
  simp only [PathGiven, ← instructions_iff, hi]

theorem Spec.SameFiles.looksAt (h : SameFiles M M') (p : Str) : LooksAt M'.fs M'.dir (PathGiven M') p ↔ LooksAt M.fs M.dir (PathGiven M) p := by
  rw [h.pathGiven]
  have ht := h.tree
  have hd : M'.dir = M.dir := h.dir
  rw [hd]
  constructor
  · intro hl
    induction hl with
    | given p hg hn => exact .given p hg hn
    | found p q _ h1 h2 ih =>
      refine .found p q ih ?_ ?_
      · simpa only [isDirectory, ht p ih] using h1
      · simpa only [getFileNames, ht p ih] using h2
  · intro hl
    induction hl with
    | given p hg hn => exact .given p hg hn
    | found p q h0 h1 h2 ih =>
      refine .found p q ih ?_ ?_
      · simpa only [isDirectory, ht p h0] using h1
      · simpa only [getFileNames, ht p h0] using h2

theorem Spec.SameFiles.symm (h : SameFiles M M') : SameFiles M' M := by
  have hl := h.looksAt
  have ht := h.tree
  have hc := h.contents
  have hd := h.dir
  obtain ⟨d, fs, c, rfl⟩ := h.rest
  refine ⟨⟨M.disk, M.fs, M.cwd, rfl⟩, hd.symm, ?_, fun p hp => (ht p ((hl p).1 hp)).symm⟩
  intro f hr
  refine (hc f ?_).symm
  cases hr with
  | instructions hi => exact .instructions hi
  | values vs f hi hv hf hd => exact .values vs f hi hv hf hd
  | input p hp hd =>
    have hp' := (hl f).1 hp
    refine .input f hp' ?_
    have := ht f hp'
    simp only [isDirectory] at hd ⊢
    rw [← this]; exact hd

theorem Spec.SameFiles.getInstructions (h : SameFiles M M') {i : DInstr} (hi : M.instructions = .ok i)
    (obj : Nat → Option DOverlay) (docObj : Nat → Option DocObj) (instr : Instr) (adHoc : Option Nat)
    (hl : Loaded i (M.setup obj docObj instr adHoc)) (fuel : Nat) :
    (M'.setup obj docObj instr adHoc).getInstructions fuel = (M.setup obj docObj instr adHoc).getInstructions fuel := by
  have ht := h.tree
  have hc := h.contents
  have hdir := h.dir
  obtain ⟨d, fs, c, rfl⟩ := h.rest
  have hr : ∀ (s : Option (List Node)) (p : Str), p = ['-'] ∨ (LooksAt M.fs M.dir (PathGiven M) p ∧ isDirectory M.fs p = some false) →
      (if p = ['-'] then s else (d (Machine.locate { M with disk := d, fs := fs, cwd := c } p)).bind M.parseAll) = if p = ['-'] then s else (M.disk (M.locate p)).bind M.parseAll := by
    intro s p hp
    split
    · rfl
    · rename_i hd
      rcases hp with hp | ⟨h1, h2⟩
      · exact absurd hp hd
      · have : d (Machine.locate { M with disk := d, fs := fs, cwd := c } p) = M.disk (M.locate p) := hc _ (.input p h1 h2)
        rw [this]
  have he : Machine.setup { M with disk := d, fs := fs, cwd := c } obj docObj instr adHoc = { M.setup obj docObj instr adHoc with
      fs := fs
      read1 := fun p => if p = ['-'] then M.stdin1 else (d (Machine.locate { M with disk := d, fs := fs, cwd := c } p)).bind M.parseAll
      read2 := fun p => if p = ['-'] then M.stdin2 else (d (Machine.locate { M with disk := d, fs := fs, cwd := c } p)).bind M.parseAll } := by
    have : ({ M with disk := d, fs := fs, cwd := c } : Machine).dir = M.dir := hdir
    simp only [Machine.setup, this]
    rfl
  rw [he]
  refine getInstructions_same (M.setup obj docObj instr adHoc) fs _ _ (PathGiven M) ?_ ?_ ht (hr M.stdin1) (hr M.stdin2) fuel
  · intro y hy
    refine .inl ⟨i, Entry.deref obj (Entry.read instr.ov instr.dc docObj y), (instructions_iff M i).1 hi, ?_, rfl⟩
    rw [← hl.filesRead]
    exact List.mem_map.2 ⟨_, List.mem_map.2 ⟨y, hy, rfl⟩, rfl⟩
  · intro hp
    exact .inr ⟨hp, rfl⟩

theorem Spec.SameFiles.expandLoopN (h : SameFiles M M') {i : DInstr} (hi : M.instructions = .ok i) (fuel : Nat) :
    Yot.expandLoopN M'.fs M'.dir fuel [] i.files = Yot.expandLoopN M.fs M.dir fuel [] i.files := by
  have ht := h.tree
  rw [h.dir]
  obtain ⟨d, fs, c, rfl⟩ := h.rest
  refine expandLoopN_same M.fs fs M.dir (PathGiven M) ht fuel [] i.files (fun y hy hd => .given _ (.inl ⟨i, y, (instructions_iff M i).1 hi, hy, rfl⟩) hd)

theorem Spec.SameFiles.ends (h : SameFiles M M') {e : Exit} {log : List Out} (he : M.Ends e log) : M'.Ends e log := by
  have hins := h.instructions
  have hg := @SameFiles.getInstructions M M' h
  have hn := @SameFiles.expandLoopN M M' h
  obtain ⟨d, fs, c, rfl⟩ := h.rest
  cases he with
  | start e h1 => exact .start e h1
  | instructionsFail h1 h2 => exact .instructionsFail h1 (hins.1.trans h2)
  | instructionsFailCrash t doc h1 h2 h3 h4 h5 h6 => exact .instructionsFailCrash t doc h1 (hins.1.trans h2) h3 ((hins.2 h3).trans h4) h5 h6
  | instructionsCrash h1 h2 => exact .instructionsCrash h1 (hins.1.trans h2)
  | nullFile i h1 h2 h3 h4 =>
    obtain ⟨N, hN⟩ := h4
    exact .nullFile i h1 (hins.1.trans h2) h3 ⟨N, fun fuel hf => (hn h2 fuel).trans (hN fuel hf)⟩
  | beforeNull i h1 h2 h3 h4 =>
    obtain ⟨N, hN⟩ := h4
    exact .beforeNull i h1 (hins.1.trans h2) h3 ⟨N, fun fuel hf => (hn h2 fuel).trans (hN fuel hf)⟩
  | badValue i obj docObj instr files h1 h2 h3 h4 h5 =>
    obtain ⟨N, hN⟩ := h4
    exact .badValue i obj docObj instr files h1 (hins.1.trans h2) ⟨h3.1, h3.2, h3.3, h3.4, h3.5⟩
      ⟨N, fun fuel hf => (hg h2 obj docObj instr none h3 fuel).trans (hN fuel hf)⟩ h5
  | unreadable i obj docObj instr adHoc h1 h2 h3 h4 =>
    obtain ⟨N, hN⟩ := h4
    exact .unreadable i obj docObj instr adHoc h1 (hins.1.trans h2) ⟨h3.1, h3.2, h3.3, h3.4, h3.5⟩
      ⟨N, fun fuel hf => (hg h2 obj docObj instr adHoc h3 fuel).trans (hN fuel hf)⟩
  | ran i obj docObj instr adHoc files s r h1 h2 h3 h4 h5 h6 h7 =>
    obtain ⟨N, hN⟩ := h5
    exact .ran i obj docObj instr adHoc files s r h1 (hins.1.trans h2) ⟨h3.1, h3.2, h3.3, h3.4, h3.5⟩ h4
      ⟨N, fun fuel hf => (hg h2 obj docObj instr adHoc h3 fuel).trans (hN fuel hf)⟩ h6 h7
  | crashed i obj docObj instr adHoc files s h1 h2 h3 h4 h5 h6 h7 =>
    obtain ⟨N, hN⟩ := h5
    exact .crashed i obj docObj instr adHoc files s h1 (hins.1.trans h2) ⟨h3.1, h3.2, h3.3, h3.4, h3.5⟩ h4
      ⟨N, fun fuel hf => (hg h2 obj docObj instr adHoc h3 fuel).trans (hN fuel hf)⟩ h6 h7

end

theorem Spec.SameFiles.moment {M M' : Machine} (h : SameFiles M M') {es : List Effect} (hm : M.Moment es) : M'.Moment es := by
  rcases hm with rfl | ⟨i, obj, docObj, instr, adHoc, files, s, h1, h2, h3, h4, ⟨N, hN⟩, h6, h7⟩
  · exact .inl rfl
  · have hins := h.instructions.1
    have hg := @SameFiles.getInstructions M M' h
    obtain ⟨d, fs, c, rfl⟩ := h.rest
    exact .inr ⟨i, obj, docObj, instr, adHoc, files, s, h1, hins.trans h2, ⟨h3.1, h3.2, h3.3, h3.4, h3.5⟩, h4,
      ⟨N, fun fuel hf => (hg h2 obj docObj instr adHoc h3 fuel).trans (hN fuel hf)⟩, h6, h7⟩

theorem Spec.SameWhereItMatters.files {M M' : Machine} (h : SameWhereItMatters M M') : SameFiles M M' := by
  have ht := h.tree
  have hc := h.contents
  obtain ⟨d, fs, rfl⟩ := h.rest
  refine ⟨⟨d, fs, M.cwd, rfl⟩, rfl, fun f hf => hc (M.locate f) ?_, ht⟩
  cases hf with
  | instructions hi => exact .instructions hi
  | values vs f hi hv hm hd => exact .values vs f hi hv hm hd
  | input p h1 h2 => exact .input _ h1 h2

/-- C99. The way the program ends and what it writes do not depend on any file that is not named:
the instructions, the values files, the inputs listed or given by `--path`, the files under
those that are directories. -/
theorem C99_ends {M M' : Machine} (h : SameWhereItMatters M M') (e : Exit) (log : List Out) : M'.Ends e log ↔ M.Ends e log :=
  ⟨h.files.symm.ends, h.files.ends⟩

/-- C99. Nor does what it asks of the operating system. -/
theorem C99_leaves {M M' : Machine} (h : SameWhereItMatters M M') (e : Exit) (es : List Effect) : M'.Leaves e es ↔ M.Leaves e es := by
  have hs : M'.stdout = M.stdout := by obtain ⟨d, fs, rfl⟩ := h.rest; rfl
  simp only [Machine.Leaves, C99_ends h, hs]

/-- C99. Nor do the states in which it can be interrupted. -/
theorem C99_moment {M M' : Machine} (h : SameWhereItMatters M M') (es : List Effect) : M'.Moment es ↔ M.Moment es :=
  ⟨h.files.symm.moment, h.files.moment⟩

/-- C99. A file that the program does not read can have any contents, or none at all. -/
theorem C99_other_file (M : Machine) (l : Str) (x : Option Str) (hl : ¬ Reads M l) (e : Exit) (log : List Out) :
    Machine.Ends { M with disk := fun q => if q = l then x else M.disk q } e log ↔ M.Ends e log := by
  refine C99_ends (M := M) (M' := { M with disk := fun q => if q = l then x else M.disk q })
    ⟨⟨fun q => if q = l then x else M.disk q, M.fs, rfl⟩, fun q hq => ?_, fun _ _ => rfl⟩ e log
  have : q ≠ l := fun h => hl (h ▸ hq)
  simp [this]

/-- C99. There can be anything, or nothing, at a path at which the program does not look. -/
theorem C99_other_path (M : Machine) (p : Str) (x : Option FsNode) (hp : ¬ LooksAt M.fs M.dir (PathGiven M) p) (e : Exit) (log : List Out) :
    Machine.Ends { M with fs := fun q => if q = p then x else M.fs q } e log ↔ M.Ends e log := by
  refine C99_ends (M := M) (M' := { M with fs := fun q => if q = p then x else M.fs q })
    ⟨⟨M.disk, fun q => if q = p then x else M.fs q, rfl⟩, fun _ _ => rfl, fun q hq => ?_⟩ e log
  have : q ≠ p := fun h => hp (h ▸ hq)
  simp [this]

/-! ### An example -/

namespace Ex

theorem machine_given (p : Str) : PathGiven machine p ↔ p = c!"x.yaml" := by
  constructor
  · rintro (⟨i, y, hi, hy, rfl⟩ | ⟨h, _⟩)
    · have h1 := (instructions_iff machine i).2 hi
      have h2 := (instructions_iff machine _).2 machine_asks.1
      rw [h1] at h2
      cases h2
      simp only [List.map_cons, List.map_nil, List.mem_singleton, Option.some.injEq, machineTask] at hy
      rw [hy]
    · exact absurd rfl h
  · rintro rfl
    exact .inl ⟨_, _, machine_asks.1, List.mem_singleton.2 rfl, rfl⟩

theorem machine_looks (p : Str) : LooksAt machine.fs machine.dir (PathGiven machine) p ↔ p = c!"/w/x.yaml" := by
  constructor
  · intro h
    induction h with
    | given p hp _ => rw [(machine_given p).1 hp]; decide
    | found p q _ h1 _ ih => rw [ih] at h1; exact absurd h1 (by decide)
  · rintro rfl
    exact .given c!"x.yaml" ((machine_given _).2 rfl) (by decide)

/-- The program reads the instructions and the input. -/
theorem machine_reads (l : Str) : Reads machine l ↔ l = c!"/w/i.yaml" ∨ l = c!"/w/x.yaml" := by
  constructor
  · intro h
    cases h with
    | instructions _ => exact .inl (by decide)
    | values fs f _ h _ _ => cases h
    | input p h _ => rw [(machine_looks p).1 h]; exact .inr (by decide)
  · rintro (rfl | rfl)
    · exact .instructions (by decide)
    · exact .input c!"/w/x.yaml" ((machine_looks _).2 rfl) (by decide)

/-- Another file does not matter. -/
example (x : Option Str) (e : Exit) (log : List Out) :
    Machine.Ends { machine with disk := fun q => if q = c!"/w/y.yaml" then x else machine.disk q } e log ↔ machine.Ends e log :=
  C99_other_file machine c!"/w/y.yaml" x (by rw [machine_reads]; decide) e log

/-- The same with another disk. -/
def diskMachine (d : Str → Option Str) : Machine := { machine with disk := d }

/-- The input does: without its contents no run succeeds. -/
example (log : List Out) : ¬ (diskMachine (fun q => if q = c!"/w/x.yaml" then none else machine.disk q)).Ends .success log := by
  intro h
  refine (C66_unreadable (diskMachine (fun q => if q = c!"/w/x.yaml" then none else machine.disk q)) machineTask
    ⟨.inr ⟨by decide, c!"I", _, .inl ⟨rfl, rfl⟩, rfl, (decodeInstructions_iff _ _ _).1 rfl⟩, .invalid, [], .inl ⟨rfl, rfl⟩, .nil, .inl ⟨rfl, rfl⟩⟩
    ⟨by right; decide, someFs_consistent, fun _ _ => Nat.le_refl _⟩ (fun hr => ?_) _ _ h).1 rfl
  have hx : c!"/w/x.yaml" ∈ (expand someFs c!"/w" machineTask.files).map (·.path) := by decide
  obtain ⟨e, he, hp⟩ := List.mem_map.1 hx
  have := hr.1.2.2 e he
  rw [hp] at this
  exact absurd this (by decide)

end Ex

end Yot
