import Verif.Lemmas.Execute
/-
C47-C51: runs under every schedule.
-/
namespace Yot
open Spec

/-! ### C47 -/

/-- **C47**: there is no endless execution. -/
theorem C47_no_endless_run (R : Run) : ¬ ∃ f : Nat → State, ∀ k, RStep R (f k) (f (k + 1)) := by
  rintro ⟨f, hf⟩
  have : ∀ k, (f k).weight R.files.length + k ≤ (f 0).weight R.files.length := by
    intro k
    induction k with
    | zero => exact Nat.le_refl _
    | succ k ih =>
      have := step_weight (hf k)
      omega
  have := this ((f 0).weight R.files.length + 1)
  omega

/-- **C47**: no deadlock: while `Execute` has not returned some goroutine can step. -/
theorem C47_no_deadlock (R : Run) (s : State) (h : Reach R s) (hc : s.crashed = false) (hm : ∀ r, ¬ Returned s r) :
    ∃ s', RStep R s s' := by
  apply progress h
  rintro (h1 | ⟨r, h1⟩)
  · rw [h1] at hc; cases hc
  · exact hm r h1

/-- **C47**: a worker never sends on the closed channel, and always finds room in
it. -/
theorem C47_channel (R : Run) (s : State) (h : Reach R s) (i : Nat) (hi : i < R.files.length)
    (hp : (s.workers i).phase = .selecting) : s.chanClosed = false ∧ s.chan.length < R.files.length := by
  refine ⟨?_, reach_room h i hi hp⟩
  cases hcl : s.chanClosed with
  | false => rfl
  | true =>
    obtain ⟨r, hr⟩ := (reach_closed h hcl).1 i hi
    rw [hp] at hr; cases hr

/-- **C47**: the program crashes only if processing some file by itself crashes. -/
theorem C47_no_crash (R : Run) (s : State) (h : Reach R s) (hc : ∀ i, i < R.files.length → ¬ Crashes R i) :
    s.crashed = false := by
  cases hcr : s.crashed with
  | false => rfl
  | true =>
    obtain ⟨i, hi, h⟩ := reach_crashed h hcr
    exact absurd h (hc i hi)

/-- **C47**: so every execution can only be continued finitely long, and ends with
`Execute` returned. -/
theorem C47_finishes (R : Run) (hc : ∀ i, i < R.files.length → ¬ Crashes R i) (s : State) (h : Reach R s)
    (hend : ∀ s', ¬ RStep R s s') : ∃ r, Returned s r := by
  have hcr := C47_no_crash R s h hc
  by_contra hno
  obtain ⟨s', hs⟩ := C47_no_deadlock R s h hcr (fun r hr => hno ⟨r, hr⟩)
  exact hend s' hs

/-! ### What the sequential result is -/

/-- Without nil pointers, the result for a file is that of the sequential program. -/
theorem resultFor_points {R : Run} (hR : R.Points) {i : Nat} (hi : i < R.files.length) :
    resultFor R i = runFile R.sed R.dflt (R.file i) := by
  obtain ⟨h1, h2, h3⟩ := hR
  unfold resultFor runFile
  rw [← h1 i hi, h2 i hi]
  have key : ∀ (ws : List (Nat × Nat)) (docs : List Node), workloads R docs ws =
      handleJobs R.sed R.dflt docs (ws.map (fun w => Job.mk w.1 (R.overlays0 w.2))) := by
    intro ws
    induction ws with
    | nil => intro docs; rfl
    | cons w ws ih =>
      intro docs
      rw [workloads_cons, List.map_cons, handleJobs_cons]
      have : workload R docs w = handleJob R.sed R.dflt docs ⟨w.1, R.overlays0 w.2⟩ := by
        unfold workload handleJob
        cases docs[w.1]? with
        | none => rfl
        | some d => simp [h3]
      rw [this]
      congr 1
      funext d
      exact ih d
  rw [key]
  cases handleJobs R.sed R.dflt (R.file i).nodes ((R.work i).map (fun w => Job.mk w.1 (R.overlays0 w.2))) <;> rfl

/-! ### C48 -/

theorem not_crashes {R : Run} {i : Nat} (h : Processes R i) : ¬ Crashes R i := by
  obtain ⟨docs, r, h1, h2⟩ := h
  rintro (h | ⟨docs', h3, h4⟩ | ⟨h5, _⟩)
  · rw [h1] at h; cases h
  · rw [h1] at h3; cases h3; rw [h2] at h4; cases h4
  · unfold resultFor at h1
    rw [h5] at h1
    cases hw : workloads R (R.file i).nodes (R.work i) <;> rw [hw] at h1 <;> cases h1

theorem mem_expected {R : Run} {i : Nat} {o : Out} (hi : i < R.files.length) (h : outputFor R i = some o) : o ∈ expected R :=
  List.mem_filterMap.2 ⟨i, by simpa using hi, h⟩

/-- **C48**: if every file can be processed and no output fails, no schedule leads to
an error. -/
theorem C48_succeeds (R : Run) (hok : ∀ i, i < R.files.length → Processes R i)
    (hw : ∀ log o, o ∈ expected R → R.writeFails log o = false) (s : State) (h : Reach R s) :
    s.crashed = false ∧ ∀ r, Returned s r → r = none := by
  refine ⟨C47_no_crash R s h (fun i hi => not_crashes (hok i hi)), ?_⟩
  intro r hr
  cases r with
  | none => rfl
  | some e =>
    exfalso
    rcases reach_returned h e hr with ⟨i, e', hi, _, he⟩ | ⟨i, e', docs, hi, _, hd, he⟩ | ⟨i, o, pre, hi, _, ho, _, hf⟩
    · obtain ⟨d, r, h1, _⟩ := hok i hi
      rw [h1] at he; cases he
    · obtain ⟨d, r, h1, h2⟩ := hok i hi
      rw [h1] at hd; cases hd; rw [h2] at he; cases he
    · rw [hw pre o (mem_expected hi ho)] at hf; cases hf

theorem success_taken {R : Run} {s : State} (h : Reach R s) (hr : Returned s none) :
    s.taken.Perm (List.range R.files.length) := by
  obtain ⟨hcl, hch, hg⟩ := reach_waiting h (.inr hr)
  have hg := hg hr
  obtain ⟨hnd, hmem⟩ := reach_sent h
  rw [hch, List.append_nil] at hnd hmem
  apply (List.perm_ext_iff_of_nodup hnd List.nodup_range).2
  intro i
  rw [hmem i, List.mem_range]
  constructor
  · exact fun h => h.1
  · intro hi
    refine ⟨hi, ?_⟩
    obtain ⟨r, hd⟩ := (reach_closed h hcl).1 i hi
    cases r with
    | none => rw [hd]; rfl
    | some e =>
      have := (reach_groupErr h).2.1 i e hi hd
      rw [hg] at this; cases this

/-- **C48**: when a run succeeds, every file has been processed, and what was output
is exactly what was to be output, once each. -/
theorem C48_exactly_once (R : Run) (s : State) (h : Reach R s) (hr : Returned s none) :
    (∀ i, i < R.files.length → Processes R i) ∧ s.log.Perm (expected R) := by
  have ht := success_taken h hr
  constructor
  · intro i hi
    exact reach_good h (reach_success h hr) (by intro e he; rw [Returned, he] at hr; cases hr) i (ht.mem_iff.2 (by simpa using hi))
  · rw [reach_log h]
    exact ht.filterMap _

/-- **C48**: at no time has a file been output twice. -/
theorem C48_never_twice (R : Run) (s : State) (h : Reach R s) : (s.log.map Out.file).Nodup := by
  rw [reach_log h]
  have hnd := (List.nodup_append.1 (reach_sent h).1).1
  have : (s.taken.filterMap (outputFor R)).map Out.file = s.taken.filter (fun i => (outputFor R i).isSome) := by
    induction s.taken with
    | nil => rfl
    | cons i is ih =>
      cases ho : outputFor R i with
      | none => simp [ho, ih]
      | some o =>
        have : o.file = i := by
          unfold outputFor at ho
          split at ho
          · split at ho
            · cases ho; rfl
            · cases ho
          · cases ho
        simp [ho, ih, this]
  rw [this]
  exact hnd.sublist List.filter_sublist

/-! ### C49 -/

/-- **C49**: if the overlays of a file fail, nothing is ever output for it, and when
`Execute` returns it returns an error. -/
theorem C49_failing_file (R : Run) (i : Nat) (hi : i < R.files.length) (e : Err)
    (he : resultFor R i = .err e) (s : State) (h : Reach R s) :
    (∀ o ∈ s.log, o.file ≠ i) ∧ ¬ Returned s none := by
  constructor
  · intro o ho
    rw [reach_log h] at ho
    obtain ⟨j, _, hj⟩ := List.mem_filterMap.1 ho
    rintro rfl
    unfold outputFor at hj
    split at hj
    · rename_i docs hd
      split at hj
      · cases hj
        rw [he] at hd; cases hd
      · cases hj
    · cases hj
  · intro hr
    obtain ⟨docs, r, h1, _⟩ := (C48_exactly_once R s h hr).1 i hi
    rw [he] at h1; cases h1

/-- **C49**: the error reported is the actual error of some file, never merely that
the work was cancelled. -/
theorem C49_real_error (R : Run) (s : State) (h : Reach R s) (e : RunErr) (hr : Returned s (some e)) :
    (∃ i e', i < R.files.length ∧ e = .overlay i e' ∧ resultFor R i = .err e') ∨
    (∃ i e' docs, i < R.files.length ∧ e = .render i e' ∧ resultFor R i = .ok docs ∧
      rendering R.emit R.style docs = .err e') ∨
    (∃ i o pre, i < R.files.length ∧ e = .write i ∧ outputFor R i = some o ∧ s.log = pre ++ [o] ∧ R.writeFails pre o = true) :=
  reach_returned h e hr

/-! ### C50 -/

theorem filter_name_short (l : List Out) (h : (l.map Out.name).Nodup) (n : Str) : (l.filter (fun o => o.name = n)).length ≤ 1 := by
  have h' := h
  rw [List.Nodup, List.pairwise_map] at h'
  have hf := h'.sublist (List.filter_sublist (p := fun o => decide (o.name = n)))
  cases hl : l.filter (fun o => o.name = n) with
  | nil => simp
  | cons a as =>
    cases as with
    | nil => simp
    | cons b bs =>
      rw [hl] at hf
      have h1 : a ∈ l.filter (fun o => o.name = n) := by rw [hl]; simp
      have h2 : b ∈ l.filter (fun o => o.name = n) := by rw [hl]; simp
      have e1 : a.name = n := by simpa using (List.mem_filter.1 h1).2
      have e2 : b.name = n := by simpa using (List.mem_filter.1 h2).2
      have := (List.pairwise_cons.1 hf).1 b (by simp)
      exact absurd (e1.trans e2.symm) this

theorem contentOf_perm (l m : List Out) (h : (l.map Out.name).Nodup) (hp : m.Perm l) (n : Str) : contentOf m n = contentOf l n := by
  unfold contentOf
  have hs := filter_name_short l h n
  have hf : (m.filter (fun o => o.name = n)).Perm (l.filter (fun o => o.name = n)) := hp.filter _
  generalize m.filter (fun o => o.name = n) = a at hf
  generalize l.filter (fun o => o.name = n) = b at hf hs
  cases b with
  | nil => rw [hf.eq_nil]
  | cons x xs =>
    cases xs with
    | nil => rw [hf.eq_singleton]
    | cons y ys => simp at hs

/-- **C50**: with distinct output names every successful run leaves the same contents
in every file: those obtained without any concurrency, from the overlays as given,
although the overlay objects are shared and written. -/
theorem C50_same_contents (R : Run) (hn : ((expected R).map Out.name).Nodup) (s : State) (h : Reach R s)
    (hr : Returned s none) (name : Str) : contentOf s.log name = contentOf (expected R) name :=
  contentOf_perm _ _ hn (C48_exactly_once R s h hr).2 name

/-- **C50**: whether a run succeeds does not depend on the schedule either (as long
as the operating system does not fail). -/
theorem C50_same_verdict (R : Run) (hw : ∀ log o, o ∈ expected R → R.writeFails log o = false)
    (s s' : State) (h : Reach R s) (h' : Reach R s') (r r' : Option RunErr) (hr : Returned s r) (hr' : Returned s' r') :
    r = none ↔ r' = none := by
  constructor
  · rintro rfl
    exact (C48_succeeds R (C48_exactly_once R s h hr).1 hw s' h').2 r' hr'
  · rintro rfl
    exact (C48_succeeds R (C48_exactly_once R s' h' hr').1 hw s h).2 r hr

/-! ### C51 -/

/-- **C51** (partial): what is printed is the text of every file, once each and not
interleaved, in some order.  Missing: the order, see `C51_order_depends`. -/
theorem C51_blocks_partial (R : Run) (s : State) (h : Reach R s) (hr : Returned s none) :
    ∃ outs : List Out, outs.Perm (expected R) ∧ printed s.log = (outs.map Out.text).flatten := by
  refine ⟨s.log, (C48_exactly_once R s h hr).2, ?_⟩
  unfold printed
  rw [List.flatMap_def]

/-- **C51** for a single file. -/
theorem C51_single_file_partial (R : Run) (h1 : R.files.length ≤ 1) (s : State) (h : Reach R s) (hr : Returned s none) :
    printed s.log = printed (expected R) := by
  have hp := (C48_exactly_once R s h hr).2
  have hlen : (expected R).length ≤ 1 := by
    refine Nat.le_trans (List.length_filterMap_le _ _) ?_
    simpa using h1
  generalize expected R = l at *
  cases l with
  | nil => rw [hp.eq_nil]
  | cons x xs =>
    cases xs with
    | nil => rw [hp.eq_singleton]
    | cons y ys => simp at hlen

/-- Two files without overlays. -/
def twoFiles : Run where
  sed := { compile := fun _ => false, run := fun _ _ => ([], true) }
  dflt := []
  files := [{ path := c!"/a.yaml", outputPath := c!"a.yaml", nodes := [.mk { kind := .document, nilc := false } [.mk { kind := .scalar, value := c!"a" } []]] },
    { path := c!"/b.yaml", outputPath := c!"b.yaml", nodes := [.mk { kind := .document, nilc := false } [.mk { kind := .scalar, value := c!"b" } []]] }]
  work := fun _ => []
  overlays0 := fun _ => {}
  emit := fun _ n => .ok ((n.content.map (fun c => c.hd.value)).flatten ++ c!"\n")
  style := []
  outDir := c!"output"
  writeFails := fun _ _ => false

theorem twoFiles_points : twoFiles.Points := by
  refine ⟨?_, fun _ _ => rfl, fun _ _ => rfl⟩
  intro i hi
  match i, hi with
  | 0, _ => rfl
  | 1, _ => rfl

/-- A schedule of the two files in the order listed. -/
theorem twoFiles_in_order : ∃ s, Reach twoFiles s ∧ Returned s none ∧ s.log.map Out.file = [0, 1] ∧
    printed s.log = c!"---\na\n---\nb\n" := by
  have r0 : Reach twoFiles _ := .start
  have r1 := Reach.step r0 (.spawn _ 0 rfl rfl (by decide))
  have r2 := Reach.step r1 (.spawn _ 1 rfl rfl (by decide))
  have r3 := Reach.step r2 (.listen _ rfl rfl)
  have r4 := Reach.step r3 (.closeStream _ 0 rfl (by decide) (fun h => by cases h) rfl rfl rfl)
  have r5 := Reach.step r4 (.handled _ 0 rfl (by decide) rfl rfl rfl)
  have r6 := Reach.step r5 (.deliver _ 0 rfl (by decide) rfl rfl (by decide))
  have r7 := Reach.step r6 (.closeStream _ 1 rfl (by decide) (fun h => by cases h) rfl rfl rfl)
  have r8 := Reach.step r7 (.handled _ 1 rfl (by decide) rfl rfl rfl)
  have r9 := Reach.step r8 (.deliver _ 1 rfl (by decide) rfl rfl (by decide))
  have r10 := Reach.step r9 (.take _ 0 [1] rfl rfl rfl)
  have r11 := Reach.step r10 (.take _ 1 [] rfl rfl rfl)
  have r12 := Reach.step r11 (.finish _ 0 none rfl (by decide) rfl)
  have r13 := Reach.step r12 (.finish _ 1 none rfl (by decide) rfl)
  have r14 := Reach.step r13 (.closeChan _ rfl (fun k h => by cases h) (fun i hi => match i, hi with | 0, _ => ⟨_, rfl⟩ | 1, _ => ⟨_, rfl⟩) rfl)
  have r15 := Reach.step r14 (.drained _ rfl rfl rfl rfl)
  have r16 := Reach.step r15 (.wait _ rfl rfl (fun i hi => match i, hi with | 0, _ => ⟨_, rfl⟩ | 1, _ => ⟨_, rfl⟩))
  exact ⟨_, r16, rfl, by decide, by decide⟩

/-- **C51** fails: a schedule that prints the second file first. -/
theorem C51_order_depends : ∃ s, Reach twoFiles s ∧ Returned s none ∧ s.log.map Out.file = [1, 0] ∧
    printed s.log = c!"---\nb\n---\na\n" := by
  have r0 : Reach twoFiles _ := .start
  have r1 := Reach.step r0 (.spawn _ 0 rfl rfl (by decide))
  have r2 := Reach.step r1 (.spawn _ 1 rfl rfl (by decide))
  have r3 := Reach.step r2 (.listen _ rfl rfl)
  have r4 := Reach.step r3 (.closeStream _ 1 rfl (by decide) (fun h => by cases h) rfl rfl rfl)
  have r5 := Reach.step r4 (.handled _ 1 rfl (by decide) rfl rfl rfl)
  have r6 := Reach.step r5 (.deliver _ 1 rfl (by decide) rfl rfl (by decide))
  have r7 := Reach.step r6 (.closeStream _ 0 rfl (by decide) (fun h => by cases h) rfl rfl rfl)
  have r8 := Reach.step r7 (.handled _ 0 rfl (by decide) rfl rfl rfl)
  have r9 := Reach.step r8 (.deliver _ 0 rfl (by decide) rfl rfl (by decide))
  have r10 := Reach.step r9 (.take _ 1 [0] rfl rfl rfl)
  have r11 := Reach.step r10 (.take _ 0 [] rfl rfl rfl)
  have r12 := Reach.step r11 (.finish _ 1 none rfl (by decide) rfl)
  have r13 := Reach.step r12 (.finish _ 0 none rfl (by decide) rfl)
  have r14 := Reach.step r13 (.closeChan _ rfl (fun k h => by cases h) (fun i hi => match i, hi with | 0, _ => ⟨_, rfl⟩ | 1, _ => ⟨_, rfl⟩) rfl)
  have r15 := Reach.step r14 (.drained _ rfl rfl rfl rfl)
  have r16 := Reach.step r15 (.wait _ rfl rfl (fun i hi => match i, hi with | 0, _ => ⟨_, rfl⟩ | 1, _ => ⟨_, rfl⟩))
  exact ⟨_, r16, rfl, by decide, by decide⟩

example : (∀ i, i < twoFiles.files.length → Processes twoFiles i) ∧ ((expected twoFiles).map Out.name).Nodup ∧
    (expected twoFiles).map Out.text = [c!"---\na\n", c!"---\nb\n"] := by
  refine ⟨?_, by decide, by decide⟩
  intro i hi
  match i, hi with
  | 0, _ => exact ⟨_, _, rfl, rfl⟩
  | 1, _ => exact ⟨_, _, rfl, rfl⟩

/-- An overlay that fails on mappings. -/
def failing : Overlay :=
  { action := .combine, query := [{ str := c!"$", find := fun n => n.content }], value := .mk { kind := .scalar, tag := c!"!!str", value := c!"x" } [] }

/-- A file on which the shared overlay fails and one on which it does not. -/
def badAndGood : Run :=
  { twoFiles with
    files := [{ path := c!"/a.yaml", outputPath := c!"a.yaml", overlays := [failing], nodes := [.mk { kind := .document, nilc := false } [.mk { kind := .mapping } []]] },
      { path := c!"/b.yaml", outputPath := c!"b.yaml", overlays := [failing], nodes := [.mk { kind := .document, nilc := false } [.mk { kind := .scalar, tag := c!"!!str", value := c!"b" } []]] }]
    work := fun _ => [(0, 0)]
    overlays0 := fun _ => failing }

theorem badAndGood_points : badAndGood.Points := by
  refine ⟨?_, fun _ _ => rfl, fun _ _ => rfl⟩
  intro i hi
  match i, hi with
  | 0, _ => rfl
  | 1, _ => rfl

example : runFile badAndGood.sed badAndGood.dflt (badAndGood.file 0) = .err .combineOnlyForScalars := by decide

/-- When a file fails the other file may be written, under one schedule, ... -/
theorem C50_failure_writes : ∃ s, Reach badAndGood s ∧ Returned s (some (.overlay 0 .combineOnlyForScalars)) ∧ s.log.map Out.file = [1] := by
  have r0 : Reach badAndGood _ := .start
  have r1 := Reach.step r0 (.spawn _ 0 rfl rfl (by decide))
  have r2 := Reach.step r1 (.spawn _ 1 rfl rfl (by decide))
  have r3 := Reach.step r2 (.listen _ rfl rfl)
  have r4 := Reach.step r3 (.send _ 1 (0, 0) [] rfl (by decide) rfl rfl)
  have r5 := Reach.step r4 (.read _ 1 0 0 rfl (by decide) rfl)
  have r6 := Reach.step r5 (.apply _ 1 0 0 failing rfl (by decide) rfl)
  have r7 := Reach.step r6 (.closeStream _ 1 rfl (by decide) (fun h => by cases h) rfl rfl rfl)
  have r8 := Reach.step r7 (.handled _ 1 rfl (by decide) rfl rfl rfl)
  have r9 := Reach.step r8 (.deliver _ 1 rfl (by decide) rfl rfl (by decide))
  have r10 := Reach.step r9 (.take _ 1 [] rfl rfl rfl)
  have r11 := Reach.step r10 (.finish _ 1 none rfl (by decide) rfl)
  have r12 := Reach.step r11 (.send _ 0 (0, 0) [] rfl (by decide) rfl rfl)
  have r13 := Reach.step r12 (.read _ 0 0 0 rfl (by decide) rfl)
  have r14 := Reach.step r13 (.apply _ 0 0 0 failing rfl (by decide) rfl)
  have r15 := Reach.step r14 (.finish _ 0 (some (.overlay 0 .combineOnlyForScalars)) rfl (by decide) rfl)
  have r16 := Reach.step r15 (.closeChan _ rfl (fun k h => by cases h) (fun i hi => match i, hi with | 0, _ => ⟨_, rfl⟩ | 1, _ => ⟨_, rfl⟩) rfl)
  have r17 := Reach.step r16 (.drained _ rfl rfl rfl rfl)
  have r18 := Reach.step r17 (.wait _ rfl rfl (fun i hi => match i, hi with | 0, _ => ⟨_, rfl⟩ | 1, _ => ⟨_, rfl⟩))
  exact ⟨_, r18, rfl, by decide⟩

/-- ... or not, under another: C50 is about successful runs only. -/
theorem C50_failure_writes_not : ∃ s, Reach badAndGood s ∧ Returned s (some (.overlay 0 .combineOnlyForScalars)) ∧ s.log.map Out.file = [] := by
  have r0 : Reach badAndGood _ := .start
  have r1 := Reach.step r0 (.spawn _ 0 rfl rfl (by decide))
  have r2 := Reach.step r1 (.spawn _ 1 rfl rfl (by decide))
  have r3 := Reach.step r2 (.listen _ rfl rfl)
  have r4 := Reach.step r3 (.send _ 0 (0, 0) [] rfl (by decide) rfl rfl)
  have r5 := Reach.step r4 (.read _ 0 0 0 rfl (by decide) rfl)
  have r6 := Reach.step r5 (.apply _ 0 0 0 failing rfl (by decide) rfl)
  have r7 := Reach.step r6 (.finish _ 0 (some (.overlay 0 .combineOnlyForScalars)) rfl (by decide) rfl)
  have r8 := Reach.step r7 (.send _ 1 (0, 0) [] rfl (by decide) rfl rfl)
  have r9 := Reach.step r8 (.read _ 1 0 0 rfl (by decide) rfl)
  have r10 := Reach.step r9 (.apply _ 1 0 0 failing rfl (by decide) rfl)
  have r11 := Reach.step r10 (.closeStream _ 1 rfl (by decide) (fun h => by cases h) rfl rfl rfl)
  have r12 := Reach.step r11 (.handled _ 1 rfl (by decide) rfl rfl rfl)
  have r13 := Reach.step r12 (.giveUp _ 1 rfl (by decide) rfl rfl)
  have r14 := Reach.step r13 (.finish _ 1 (some .canceled) rfl (by decide) rfl)
  have r15 := Reach.step r14 (.closeChan _ rfl (fun k h => by cases h) (fun i hi => match i, hi with | 0, _ => ⟨_, rfl⟩ | 1, _ => ⟨_, rfl⟩) rfl)
  have r16 := Reach.step r15 (.drained _ rfl rfl rfl rfl)
  have r17 := Reach.step r16 (.wait _ rfl rfl (fun i hi => match i, hi with | 0, _ => ⟨_, rfl⟩ | 1, _ => ⟨_, rfl⟩))
  exact ⟨_, r17, rfl, by decide⟩

end Yot
