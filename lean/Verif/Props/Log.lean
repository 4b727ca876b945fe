import Verif.Lemmas.Log
import Verif.Props.Builder
import Verif.Props.Config
import Verif.Props.Process
import Verif.Lemmas.Format
import Verif.Spec.Build
/-
C86: the announcements of the log.  C87: what the log says of one overlay on one document.  C88: warnings of commands.
-/
namespace Yot
open Spec Ex

/-! ### C86 -/

theorem announce_map (R : Run) (i : Nat) (a : List (Nat × Nat)) :
    a.map (announce R i) = (a.map (fun w => Job.mk w.1 (R.overlays0 w.2))).map (announcement R i) := by
  rw [List.map_map]; rfl

/-- The workloads a worker announced are the first of its workloads. -/
theorem told_prefix {R : Run} {i : Nat} {w : Worker} {a : List (Nat × Nat)} (h : w.phase.Told R i w a) : a <+: R.work i := by
  cases hp : w.phase with
  | notStarted => rw [hp] at h; exact ⟨_, h.1.symm⟩
  | receiving => rw [hp] at h; exact ⟨_, h.1.symm⟩
  | received d p => rw [hp] at h; exact ⟨_, h.1.symm⟩
  | applying d p o =>
    rw [hp] at h
    obtain ⟨b, rfl, h, _⟩ := h
    exact ⟨w.queue, by rw [h]; simp⟩
  | selecting => rw [hp] at h; exact ⟨[], by rw [List.append_nil]; exact h⟩
  | returned r =>
    rw [hp] at h
    cases r with
    | none => exact ⟨[], by rw [List.append_nil]; exact h⟩
    | some e =>
      rcases h with ⟨_, h, _⟩ | ⟨e', b, x, post, docs, _, h, rfl, _⟩
      · exact ⟨[], by rw [List.append_nil]; exact h⟩
      · exact ⟨post, by rw [h]; simp⟩
  | done r =>
    rw [hp] at h
    cases r with
    | none => exact ⟨[], by rw [List.append_nil]; exact h⟩
    | some e =>
      rcases h with ⟨_, h, _⟩ | ⟨e', b, x, post, docs, _, h, rfl, _⟩
      · exact ⟨[], by rw [List.append_nil]; exact h⟩
      · exact ⟨post, by rw [h]; simp⟩

theorem workloads_jobs {R : Run} (hR : R.Points) (ws : List (Nat × Nat)) : ∀ docs : List Node, workloads R docs ws =
    handleJobs R.sed R.dflt docs (ws.map (fun w => Job.mk w.1 (R.overlays0 w.2))) := by
  induction ws with
  | nil => intro docs; rfl
  | cons w ws ih =>
    intro docs
    rw [workloads_cons, List.map_cons, handleJobs_cons]
    have : workload R docs w = handleJob R.sed R.dflt docs ⟨w.1, R.overlays0 w.2⟩ := by
      unfold workload handleJob
      cases docs[w.1]? with
      | none => rfl
      | some d => simp [hR.2.2]
    rw [this]
    congr 1
    funext d
    exact ih d

/-- **C86**: under every schedule, at every moment, with the level `notice` what has been logged about a file is
one announcement for each of its first (overlay, document) pairs, in the order in which they are applied,
naming the overlay, the file and the document; and if the file has been output, for all of them. -/
theorem C86_announced (R : Run) (hR : R.Points) (s : State) (l : List (Nat × Msg)) (h : Logged R s l) (i : Nat) (hi : i < R.files.length) :
    ∃ pre post, (R.file i).jobs = pre ++ post ∧ about .notice l i = pre.map (announcement R i) ∧ (i ∈ s.taken → post = []) := by
  obtain ⟨a, h1, h2⟩ := logged_told h i hi
  obtain ⟨b, hb⟩ := told_prefix h2
  refine ⟨a.map (fun w => Job.mk w.1 (R.overlays0 w.2)), b.map (fun w => Job.mk w.1 (R.overlays0 w.2)), ?_, ?_, ?_⟩
  · rw [← List.map_append, hb, hR.1 i hi]
  · rw [h1, announce_map R i]
  · intro ht
    have hs := ((reach_sent h.reach).2 i).1 (List.mem_append_left _ ht)
    have key : a = R.work i := by
      cases hp : (s.workers i).phase with
      | returned r =>
        cases r with
        | none => rw [hp] at h2; exact h2
        | some e => rw [hp] at hs; cases hs.2
      | done r =>
        cases r with
        | none => rw [hp] at h2; exact h2
        | some e => rw [hp] at hs; cases hs.2
      | _ => rw [hp] at hs; cases hs.2
    rw [key] at hb
    rw [List.append_right_eq_self.1 hb, List.map_nil]

/-- **C86**: when the run succeeds, each file has had all its announcements. -/
theorem C86_all (R : Run) (hR : R.Points) (s : State) (l : List (Nat × Msg)) (h : Logged R s l) (hs : Returned s none)
    (i : Nat) (hi : i < R.files.length) : about .notice l i = (R.file i).jobs.map (announcement R i) := by
  obtain ⟨pre, post, h1, h2, h3⟩ := C86_announced R hR s l h i hi
  have hw := reach_waiting h.reach (.inr hs)
  obtain ⟨r, hr⟩ := (reach_closed h.reach hw.1).1 i hi
  have hsent : (s.workers i).phase.sent = true := by
    rw [hr]
    cases r with
    | none => rfl
    | some e =>
      have := (reach_groupErr h.reach).2.1 i e hi hr
      rw [hw.2.2 hs] at this
      cases this
  have ht := ((reach_sent h.reach).2 i).2 ⟨hi, hsent⟩
  rw [hw.2.1, List.append_nil] at ht
  rw [h1, h3 ht, List.append_nil, h2]

/-- **C86**: when the run fails because of an overlay, the last announcement about the file tells where: the pairs
announced before it were applied without error, and this one fails with the error of the run. -/
theorem C86_failed (R : Run) (hR : R.Points) (s : State) (l : List (Nat × Msg)) (h : Logged R s l) (i : Nat) (e : Err)
    (hs : Returned s (some (.overlay i e))) : ∃ pre j post docs, (R.file i).jobs = pre ++ j :: post ∧
      about .notice l i = (pre ++ [j]).map (announcement R i) ∧
      handleJobs R.sed R.dflt (R.file i).nodes pre = .ok docs ∧ handleJob R.sed R.dflt docs j = .err e := by
  have hcl := reach_failed h.reach i e hs
  have hres : i < R.files.length ∧ resultFor R i = .err e := by
    rcases reach_returned h.reach _ hs with ⟨k, e', hk, he, hr⟩ | ⟨k, e', d, hk, he, _⟩ | ⟨k, e', d, hk, he, _⟩
    · cases he; exact ⟨hk, hr⟩
    · cases he
    · cases he
  obtain ⟨hi, hres⟩ := hres
  obtain ⟨r, hr⟩ := (reach_closed h.reach hcl).1 i hi
  obtain ⟨a, h1, h2⟩ := logged_told h i hi
  have hinv := reach_workers h.reach i hi
  unfold Worker.Inv at hinv
  rw [hr] at h2 hinv
  cases r with
  | none => rw [show resultFor R i = .ok _ from hinv] at hres; cases hres
  | some e0 =>
    rcases h2 with ⟨_, _, docs, hd⟩ | ⟨e', b, x, post, docs, he, hw, rfl, hb, hx⟩
    · rw [hd] at hres; cases hres
    · have hee : e' = e := by
        have : resultFor R i = .err e' := by
          unfold resultFor
          rw [hw]
          unfold workloads at hb ⊢
          rw [List.foldlM_append, hb, Res.bind_ok, List.foldlM_cons, hx]
          rfl
        rw [hres] at this
        cases this; rfl
      subst hee
      refine ⟨b.map (fun w => Job.mk w.1 (R.overlays0 w.2)), ⟨x.1, R.overlays0 x.2⟩, post.map (fun w => Job.mk w.1 (R.overlays0 w.2)), docs, ?_, ?_, ?_, ?_⟩
      · rw [← hR.1 i hi, hw]; simp
      · rw [h1, announce_map R i]; simp
      · rw [← workloads_jobs hR, hb]
      · rw [← hx]
        unfold workload handleJob
        cases docs[x.1]? with
        | none => rfl
        | some d => simp [hR.2.2]

/-- Every schedule has a log. -/
theorem C86_exists (R : Run) (s : State) (h : Reach R s) : ∃ l, Logged R s l := by
  induction h with
  | start => exact ⟨[], .start⟩
  | step hr hs ih =>
    obtain ⟨l, hl⟩ := ih
    obtain ⟨m, hm⟩ := hs.logs hr
    exact ⟨_, .step hl hm⟩

theorem logged_levels {R : Run} {s : State} {l : List (Nat × Msg)} (h : Logged R s l) :
    ∀ x ∈ l, x.2.level = .notice ∨ x.2.level = .debug := by
  induction h with
  | start => simp
  | step _ hs ih =>
    intro x hx
    rcases List.mem_append.1 hx with hx | hx
    · exact ih x hx
    · cases hs with
      | read i d p => simp only [List.mem_singleton] at hx; subst hx; exact .inl rfl
      | apply i d p o =>
        obtain ⟨m, hm, rfl⟩ := List.mem_map.1 hx
        right
        split at hm
        · exact msgs_debug _ _ _ _ m hm
        · simp at hm
      | take i r =>
        obtain ⟨m, hm, rfl⟩ := List.mem_map.1 hx
        exact .inr (takeMsgs_debug _ _ _ m hm)
      | other => simp at hx

/-- **C86**: with the levels `critical`, `error` and `warning` (the default) nothing of this is shown; with `info` the same
as with `notice`; with `debug` everything. -/
theorem C86_levels (R : Run) (s : State) (l : List (Nat × Msg)) (h : Logged R s l) :
    shown .critical l = [] ∧ shown .error l = [] ∧ shown .warning l = [] ∧ shown .info l = shown .notice l ∧ shown .debug l = l.map Prod.snd := by
  have hl := logged_levels h
  have key : ∀ m ∈ l.map Prod.snd, m.level = .notice ∨ m.level = .debug := by
    intro m hm
    obtain ⟨x, hx, rfl⟩ := List.mem_map.1 hm
    exact hl x hx
  unfold shown
  refine ⟨?_, ?_, ?_, ?_, ?_⟩
  · rw [List.filter_eq_nil_iff]; intro m hm; rcases key m hm with h | h <;> rw [h] <;> decide
  · rw [List.filter_eq_nil_iff]; intro m hm; rcases key m hm with h | h <;> rw [h] <;> decide
  · rw [List.filter_eq_nil_iff]; intro m hm; rcases key m hm with h | h <;> rw [h] <;> decide
  · apply List.filter_congr; intro m hm; rcases key m hm with h | h <;> rw [h] <;> decide
  · rw [List.filter_eq_self]; intro m hm; rcases key m hm with h | h <;> rw [h] <;> decide

/-- **C86**: each level is called by its name, in any mixture of letter cases. -/
theorem C86_level_names (t : Str) (v : Level) : levelOf t = some v ↔ AnyCase t (levelName v) := by
  have hl : ∀ v : Level, ∀ l ∈ levelName v, 97 ≤ l.toNat ∧ l.toNat ≤ 122 := by intro v; cases v <;> decide
  rw [← show _ ↔ AnyCase t _ from map_toLower_iff t _ (hl v)]
  unfold levelOf
  constructor
  · intro h
    simp only at h
    repeat' split at h
    all_goals cases h
    all_goals assumption
  · intro h
    simp only [h]
    cases v <;> rfl

/-- **C86**: and a process that starts well has a level. -/
theorem C86_level_set (M : Machine) (h : StartsWell M) : ∃ v, levelOf (M.text c!"logLevel") = some v := by
  obtain ⟨w, hw, hc⟩ := h.level
  simp only [List.mem_cons, List.not_mem_nil, or_false] at hw
  rcases hw with rfl | rfl | rfl | rfl | rfl | rfl
  · exact ⟨.critical, (C86_level_names _ _).2 hc⟩
  · exact ⟨.error, (C86_level_names _ _).2 hc⟩
  · exact ⟨.warning, (C86_level_names _ _).2 hc⟩
  · exact ⟨.notice, (C86_level_names _ _).2 hc⟩
  · exact ⟨.info, (C86_level_names _ _).2 hc⟩
  · exact ⟨.debug, (C86_level_names _ _).2 hc⟩

/-- A run that fails, with what it announced. -/
example : ∃ s l, Logged badAndGood s l ∧ Returned s (some (.overlay 0 .combineOnlyForScalars)) ∧
    about .notice l 0 = [.processing [] c!"/a.yaml" 0] := by
  obtain ⟨s, hs, hr, hl⟩ := C50_failure_writes
  obtain ⟨l, h⟩ := C86_exists _ s hs
  refine ⟨s, l, h, hr, ?_⟩
  obtain ⟨pre, j, post, docs, h1, h2, _⟩ := C86_failed _ badAndGood_points s l h _ _ hr
  rw [h2]
  have : (badAndGood.file 0).jobs = [⟨0, failing⟩] := rfl
  rw [this] at h1
  cases pre with
  | nil => simp only [List.nil_append, List.cons.injEq] at h1; rw [← h1.1]; rfl
  | cons x xs => simp at h1

/-- A file to which an overlay is applied twice. -/
def twice : Run :=
  { twoFiles with
    files := [{ path := c!"/b.yaml", outputPath := c!"b.yaml", overlays := [failing, failing], nodes := [.mk { kind := .document, nilc := false } [.mk { kind := .scalar, tag := c!"!!str", value := c!"b" } []]] }]
    work := fun _ => [(0, 0), (0, 0)]
    overlays0 := fun _ => failing }

theorem twice_points : twice.Points := by
  refine ⟨?_, fun _ _ => rfl, fun _ _ => rfl⟩
  intro i hi
  match i, hi with
  | 0, _ => rfl

/-- A run that succeeds, with what it announced. -/
example : ∃ s l, Logged twice s l ∧ Returned s none ∧ printed s.log = c!"---\nbxx\n" ∧
    about .notice l 0 = [.processing [] c!"/b.yaml" 0, .processing [] c!"/b.yaml" 0] := by
  have r0 : Reach twice _ := .start
  have r1 := Reach.step r0 (.spawn _ 0 rfl rfl (by decide))
  have r2 := Reach.step r1 (.listen _ rfl rfl)
  have r3 := Reach.step r2 (.send _ 0 (0, 0) [(0, 0)] rfl (by decide) rfl rfl)
  have r4 := Reach.step r3 (.read _ 0 0 0 rfl (by decide) rfl)
  have r5 := Reach.step r4 (.apply _ 0 0 0 failing rfl (by decide) rfl)
  have r6 := Reach.step r5 (.send _ 0 (0, 0) [] rfl (by decide) rfl rfl)
  have r7 := Reach.step r6 (.read _ 0 0 0 rfl (by decide) rfl)
  have r8 := Reach.step r7 (.apply _ 0 0 0 failing rfl (by decide) rfl)
  have r9 := Reach.step r8 (.closeStream _ 0 rfl (by decide) (fun h => by cases h) rfl rfl rfl)
  have r10 := Reach.step r9 (.handled _ 0 rfl (by decide) rfl rfl rfl)
  have r11 := Reach.step r10 (.deliver _ 0 rfl (by decide) rfl rfl (by decide))
  have r12 := Reach.step r11 (.take _ 0 [] rfl rfl rfl)
  have r13 := Reach.step r12 (.finish _ 0 none rfl (by decide) rfl)
  have r14 := Reach.step r13 (.closeChan _ rfl (fun k h => by cases h) (fun i hi => match i, hi with | 0, _ => ⟨_, rfl⟩) rfl)
  have r15 := Reach.step r14 (.drained _ rfl rfl rfl rfl)
  have r16 := Reach.step r15 (.wait _ rfl rfl (fun i hi => match i, hi with | 0, _ => ⟨_, rfl⟩))
  obtain ⟨l, h⟩ := C86_exists _ _ r16
  exact ⟨_, l, h, rfl, by decide, C86_all twice twice_points _ l h rfl 0 (by decide)⟩

/-! ### C87 -/

/-- Announces the application to one match. -/
def Msg.isApplying : Msg → Bool
  | .applying _ _ _ _ => true
  | _ => false

theorem mem_checkQueryMsgs (n : Node) (q : DocumentQuery) : ∀ m ∈ checkQueryMsgs n q, ∃ t, m = .searching t := by
  induction q with
  | nil => simp [checkQueryMsgs]
  | cons c cs ih =>
    intro m hm
    unfold checkQueryMsgs at hm
    rcases List.mem_append.1 hm with h | h
    · simp only [findMsgs, List.mem_map] at h
      obtain ⟨q, _, rfl⟩ := h; exact ⟨_, rfl⟩
    · split at h
      · exact ih m h
      · simp at h

theorem mem_findMsgs (qs : List Query) : ∀ m ∈ findMsgs qs, ∃ t, m = .searching t := by
  intro m h
  simp only [findMsgs, List.mem_map] at h
  obtain ⟨q, _, rfl⟩ := h; exact ⟨_, rfl⟩

theorem checkQueries_cons (q : DocumentQuery) (qs : List DocumentQuery) (n : Node) :
    checkQueriesMsgsFrom n (q :: qs) = checkQueryMsgs n q ++ if checkQuery q n then [.conditionsMet] else checkQueriesMsgsFrom n qs := rfl

/-- Among the messages of the document queries, besides those of the searches, is exactly one verdict. -/
theorem checkQueriesMsgsFrom_verdict (n : Node) (qs : List DocumentQuery) : ∀ m, (∀ t, m ≠ .searching t) →
    (m ∈ checkQueriesMsgsFrom n qs ↔ m = if qs.any (fun q => checkQuery q n) then .conditionsMet else .conditionsNotMet) := by
  induction qs with
  | nil => intro m _; simp [checkQueriesMsgsFrom]
  | cons q qs ih =>
    intro m hm
    rw [checkQueries_cons, List.mem_append]
    have h1 : m ∉ checkQueryMsgs n q := by
      intro h
      obtain ⟨t, h⟩ := mem_checkQueryMsgs n q m h
      exact hm t h
    by_cases hq : checkQuery q n = true
    · simp [hq, h1]
    · simp only [hq, Bool.false_eq_true, if_false, List.any_cons, Bool.false_or]
      simp [h1, ih m hm]

open Classical in
/-- The messages of `Apply`, besides those of the searches. -/
theorem mem_applyMsgs (E : Sed) (dflt : Str) (o : Overlay) (doc : Node) (m : Msg) (hm : ∀ t, m ≠ .searching t) :
    m ∈ applyMsgs E dflt o doc ↔ m = .checking o.name ∨
      (m = if o.documentQuery.isEmpty then .noDocumentQueries else if Qualifies o doc then .conditionsMet else .conditionsNotMet) ∨
      (Qualifies o doc ∧ (¬ ∃ x, Matches o.query doc x) ∧ (m = .noResults ∨ m ∈ onMissingMsgs E dflt o doc)) ∨
      (Qualifies o doc ∧ (∃ x, Matches o.query doc x) ∧ m ∈ actionMsgs E o doc (findAll o.query doc)) := by
  have hf : m ∉ findMsgs o.query := by
    intro h
    obtain ⟨t, h⟩ := mem_findMsgs _ m h
    exact hm t h
  have hv : m ∈ checkQueriesMsgs o.documentQuery doc ↔
      m = if o.documentQuery.isEmpty then .noDocumentQueries else if Qualifies o doc then .conditionsMet else .conditionsNotMet := by
    unfold checkQueriesMsgs
    by_cases he : o.documentQuery.isEmpty = true
    · simp [he]
    · simp only [he, Bool.false_eq_true, if_false]
      rw [checkQueriesMsgsFrom_verdict doc _ m hm]
      have : (o.documentQuery.any (fun q => checkQuery q doc) = true) ↔ Qualifies o doc := by
        rw [← checkQueries_iff, checkQueries]
        simp only [he, Bool.false_eq_true, if_false]
      by_cases hq : Qualifies o doc
      · rw [if_pos (this.2 hq), if_pos hq]
      · rw [if_neg (fun h => hq (this.1 h)), if_neg hq]
  unfold applyMsgs
  rw [List.cons_append, List.mem_cons, List.mem_append, hv]
  by_cases hq : Qualifies o doc
  · have hq' := hq
    rw [← checkQueries_iff] at hq'
    simp only [hq', if_true, List.mem_append, hf, false_or, hq, true_and]
    by_cases hm : ∃ x, Matches o.query doc x
    · have hne : (findAll o.query doc).isEmpty = false := by
        rw [List.isEmpty_eq_false_iff, Ne, findAll_eq_nil, not_not]
        exact hm
      simp only [hne, Bool.false_eq_true, if_false, hm, not_true, false_and, false_or, true_and]
    · have he : (findAll o.query doc).isEmpty = true := by
        rw [List.isEmpty_iff, findAll_eq_nil]
        exact hm
      simp only [he, if_true, hm, not_false_iff, true_and, false_and, or_false, List.mem_cons]
  · have hq' := hq
    rw [← checkQueries_iff, Bool.not_eq_true] at hq'
    simp only [hq', hq, Bool.false_eq_true, if_false, false_and, or_false, List.not_mem_nil]

theorem mem_actionMsgs (E : Sed) (o : Overlay) (ns : List Node) : ∀ root, ∀ m ∈ actionMsgs E o root ns, m.isApplying = true := by
  induction ns with
  | nil => simp [actionMsgs]
  | cons n ns ih =>
    intro root m h
    unfold actionMsgs at h
    rcases List.mem_cons.1 h with rfl | h
    · rfl
    · split at h
      · exact ih _ m h
      · simp at h

/-- The messages of `onMissing`, besides those of the searches. -/
theorem mem_onMissingMsgs (E : Sed) (dflt : Str) (o : Overlay) (doc : Node) (m : Msg) (hm : ∀ t, m ≠ .searching t) :
    m ∈ onMissingMsgs E dflt o doc ↔
      (¬ Injects dflt o.onMissing ∧ m = .ignoringNoInject o.action.str (joinWith ',' (o.query.map Query.str))) ∨
      (Injects dflt o.onMissing ∧ (¬ ∀ q ∈ o.query, PlainPath q.str) ∧ o.onMissing.injectPath = none ∧
        m = .ignoringNoPath o.action.str (joinWith ',' (o.query.map Query.str))) := by
  have hi : ∀ ip, m ∉ injectMsgs E ip doc := by
    intro ip h
    unfold injectMsgs at h
    split at h
    · split at h
      · split at h
        · obtain ⟨t, h⟩ := mem_findMsgs _ m h
          exact hm t h
        · simp at h
      · simp at h
    · simp at h
  unfold onMissingMsgs
  simp only
  by_cases hI : Injects dflt o.onMissing
  · have hI' := hI
    rw [← resolve_inject_iff] at hI'
    simp only [hI', hI, not_true, false_and, false_or, true_and]
    by_cases hq : ∀ q ∈ o.query, PlainPath q.str
    · obtain ⟨ns, hns⟩ := newPaths_ok (o.query.map Query.str) (by simpa using hq)
      simp only [hns, hi, false_iff, not_and]
      intro h; exact absurd hq h
    · rw [newPaths_err _ (by simpa using hq)]
      simp only [hq, not_false_iff, true_and]
      cases hip : o.onMissing.injectPath with
      | none => simp
      | some ip => simp [hi]
  · have hI' := hI
    rw [← resolve_inject_iff] at hI'
    simp only [hI, not_false_iff, true_and, false_and, or_false]
    simp

/-- **C87**: "conditions not met" is logged exactly if the document query does not hold; then nothing is done. -/
theorem C87_not_met (E : Sed) (dflt : Str) (o : Overlay) (doc : Node) :
    (.conditionsNotMet ∈ applyMsgs E dflt o doc ↔ ¬ Qualifies o doc) ∧
    (.conditionsNotMet ∈ applyMsgs E dflt o doc → apply E dflt o doc = .ok doc) := by
  have key : .conditionsNotMet ∈ applyMsgs E dflt o doc ↔ ¬ Qualifies o doc := by
    rw [mem_applyMsgs _ _ _ _ _ (by intro t; simp)]
    constructor
    · rintro (h | h | ⟨hq, _, h⟩ | ⟨_, _, h⟩)
      · cases h
      · intro hq
        rw [if_pos hq] at h
        split at h <;> cases h
      · exfalso
        rcases h with h | h
        · cases h
        · rw [mem_onMissingMsgs _ _ _ _ _ (by intro t; simp)] at h
          rcases h with ⟨_, h⟩ | ⟨_, _, _, h⟩ <;> cases h
      · exact absurd (mem_actionMsgs _ _ _ _ _ h) (by simp [Msg.isApplying])
    · intro hq
      right; left
      have he : o.documentQuery.isEmpty = false := by
        rw [List.isEmpty_eq_false_iff]
        intro h
        exact hq (.inl h)
      rw [he, if_neg hq]
      rfl
  exact ⟨key, fun h => C18_unqualified_overlay_is_identity E dflt o doc (.inl (key.1 h))⟩

/-- **C87**: "no results" is logged exactly if the document query holds and nothing is matched. -/
theorem C87_no_results (E : Sed) (dflt : Str) (o : Overlay) (doc : Node) :
    .noResults ∈ applyMsgs E dflt o doc ↔ Qualifies o doc ∧ ¬ ∃ m, Matches o.query doc m := by
  rw [mem_applyMsgs _ _ _ _ _ (by intro t; simp)]
  constructor
  · rintro (h | h | ⟨hq, hm, _⟩ | ⟨_, _, h⟩)
    · cases h
    · split at h
      · cases h
      · split at h <;> cases h
    · exact ⟨hq, hm⟩
    · exact absurd (mem_actionMsgs _ _ _ _ _ h) (by simp [Msg.isApplying])
  · rintro ⟨hq, hm⟩
    exact .inr (.inr (.inl ⟨hq, hm, .inl rfl⟩))

/-- **C87**: "ignoring, no inject action" is logged, with the action and the query, exactly if the document query holds,
nothing is matched and inject is not in effect; then nothing is done. -/
theorem C87_ignored (E : Sed) (dflt : Str) (o : Overlay) (doc : Node) (a t : Str) :
    (.ignoringNoInject a t ∈ applyMsgs E dflt o doc ↔
      Qualifies o doc ∧ (¬ ∃ m, Matches o.query doc m) ∧ ¬ Injects dflt o.onMissing ∧
        a = o.action.str ∧ t = joinWith ',' (o.query.map Query.str)) ∧
    (.ignoringNoInject a t ∈ applyMsgs E dflt o doc → apply E dflt o doc = .ok doc) := by
  have key : .ignoringNoInject a t ∈ applyMsgs E dflt o doc ↔
      Qualifies o doc ∧ (¬ ∃ m, Matches o.query doc m) ∧ ¬ Injects dflt o.onMissing ∧
        a = o.action.str ∧ t = joinWith ',' (o.query.map Query.str) := by
    rw [mem_applyMsgs _ _ _ _ _ (by intro t; simp), mem_onMissingMsgs _ _ _ _ _ (by intro t; simp)]
    constructor
    · rintro (h | h | ⟨hq, hm, h⟩ | ⟨_, _, h⟩)
      · cases h
      · split at h
        · cases h
        · split at h <;> cases h
      · rcases h with h | ⟨h1, h⟩ | ⟨_, _, _, h⟩
        · cases h
        · cases h; exact ⟨hq, hm, h1, rfl, rfl⟩
        · cases h
      · exact absurd (mem_actionMsgs _ _ _ _ _ h) (by simp [Msg.isApplying])
    · rintro ⟨hq, hm, h1, rfl, rfl⟩
      exact .inr (.inr (.inl ⟨hq, hm, .inr (.inl ⟨h1, rfl⟩)⟩))
  exact ⟨key, fun h => C18_unqualified_overlay_is_identity E dflt o doc (.inr ⟨(key.1 h).2.1, (key.1 h).2.2.1⟩)⟩

/-- **C87**: "ignoring, no injectPath" is logged, with the action and the query, exactly if the document query holds,
nothing is matched, inject is in effect, some query is not a plain path, and there is no injectPath; then nothing is done. -/
theorem C87_no_path (E : Sed) (dflt : Str) (o : Overlay) (doc : Node) (a t : Str) :
    (.ignoringNoPath a t ∈ applyMsgs E dflt o doc ↔
      Qualifies o doc ∧ (¬ ∃ m, Matches o.query doc m) ∧ Injects dflt o.onMissing ∧ (¬ ∀ q ∈ o.query, PlainPath q.str) ∧
        o.onMissing.injectPath = none ∧ a = o.action.str ∧ t = joinWith ',' (o.query.map Query.str)) ∧
    (.ignoringNoPath a t ∈ applyMsgs E dflt o doc → apply E dflt o doc = .ok doc) := by
  have key : .ignoringNoPath a t ∈ applyMsgs E dflt o doc ↔
      Qualifies o doc ∧ (¬ ∃ m, Matches o.query doc m) ∧ Injects dflt o.onMissing ∧ (¬ ∀ q ∈ o.query, PlainPath q.str) ∧
        o.onMissing.injectPath = none ∧ a = o.action.str ∧ t = joinWith ',' (o.query.map Query.str) := by
    rw [mem_applyMsgs _ _ _ _ _ (by intro t; simp), mem_onMissingMsgs _ _ _ _ _ (by intro t; simp)]
    constructor
    · rintro (h | h | ⟨hq, hm, h⟩ | ⟨_, _, h⟩)
      · cases h
      · split at h
        · cases h
        · split at h <;> cases h
      · rcases h with h | ⟨h1, h⟩ | ⟨h1, h2, h3, h⟩
        · cases h
        · cases h
        · cases h; exact ⟨hq, hm, h1, h2, h3, rfl, rfl⟩
      · exact absurd (mem_actionMsgs _ _ _ _ _ h) (by simp [Msg.isApplying])
    · rintro ⟨hq, hm, h1, h2, h3, rfl, rfl⟩
      exact .inr (.inr (.inl ⟨hq, hm, .inr (.inr ⟨h1, h2, h3, rfl⟩)⟩))
  exact ⟨key, fun h => C28_no_injectPath E dflt o doc (key.1 h).2.1 (key.1 h).2.2.2.1 (key.1 h).2.2.2.2.1⟩

/-- The message before the overlay is applied to a match: the names of the overlay and of the action, and where the match was. -/
def applyingTo (o : Overlay) (m : Node) : Msg := .applying o.name o.action.str m.hd.row m.hd.col

theorem actionMsgs_prefix (E : Sed) (o : Overlay) (ns : List Node) : ∀ root, actionMsgs E o root ns <+: ns.map (applyingTo o) ∧
    (∀ r, doAction E o root ns = .ok r → actionMsgs E o root ns = ns.map (applyingTo o)) ∧
    ((∀ r, doAction E o root ns ≠ .ok r) → ∃ pre m post r, ns = pre ++ m :: post ∧ actionMsgs E o root ns = (pre ++ [m]).map (applyingTo o) ∧
      doAction E o root pre = .ok r ∧ doOne E o r m.hd.addr = doAction E o root ns) := by
  induction ns with
  | nil => intro root; exact ⟨List.prefix_rfl, fun _ _ => rfl, fun h => absurd rfl (h root)⟩
  | cons n ns ih =>
    intro root
    have hd : doAction E o root (n :: ns) = doOne E o root n.hd.addr >>= fun r => doAction E o r ns := rfl
    have hm : actionMsgs E o root (n :: ns) = applyingTo o n :: (match doOne E o root n.hd.addr with
        | .ok r => actionMsgs E o r ns
        | _ => []) := rfl
    rw [hd, hm]
    cases h : doOne E o root n.hd.addr with
    | ok r =>
      obtain ⟨h1, h2, h3⟩ := ih r
      rw [Res.bind_ok]
      refine ⟨(List.prefix_cons_inj _).2 h1, fun r' hr => by simp only [List.map_cons]; rw [h2 r' hr], fun he => ?_⟩
      obtain ⟨pre, m, post, r', rfl, h4, h5, h6⟩ := h3 he
      refine ⟨n :: pre, m, post, r', rfl, by simp only [List.cons_append, List.map_cons]; rw [h4], ?_, h6⟩
      show doOne E o root n.hd.addr >>= _ = _
      rw [h]; exact h5
    | err e => exact ⟨⟨ns.map (applyingTo o), rfl⟩, fun r hr => (by cases hr), fun _ => ⟨[], n, ns, root, rfl, rfl, rfl, h⟩⟩
    | panic => exact ⟨⟨ns.map (applyingTo o), rfl⟩, fun r hr => (by cases hr), fun _ => ⟨[], n, ns, root, rfl, rfl, rfl, h⟩⟩

theorem filter_none {l : List Msg} (h : ∀ m ∈ l, ∃ t, m = .searching t) : l.filter Msg.isApplying = [] := by
  rw [List.filter_eq_nil_iff]
  intro m hm
  obtain ⟨t, rfl⟩ := h m hm
  simp [Msg.isApplying]

theorem filter_check (dqs : List DocumentQuery) (n : Node) : (checkQueriesMsgs dqs n).filter Msg.isApplying = [] := by
  unfold checkQueriesMsgs
  split
  · rfl
  · induction dqs with
    | nil => rfl
    | cons q qs ih =>
      rw [checkQueries_cons, List.filter_append, filter_none (mem_checkQueryMsgs n q)]
      split
      · rfl
      · by_cases hq : qs = []
        · subst hq; rfl
        · exact ih (by simpa using hq)

/-- **C87**: if the document query holds and something is matched, the overlay is announced for the matches, in the order in
which the queries find them: for all of them if it succeeds; otherwise up to the one at which it fails. -/
theorem C87_applied (E : Sed) (dflt : Str) (o : Overlay) (doc : Node) (hq : Qualifies o doc) (hm : ∃ m, Matches o.query doc m) :
    ∃ ms, ms = o.query.flatMap (fun q => q.find doc) ∧
      (∀ r, apply E dflt o doc = .ok r → (applyMsgs E dflt o doc).filter Msg.isApplying = ms.map (applyingTo o)) ∧
      ((∀ r, apply E dflt o doc ≠ .ok r) → ∃ pre m post r, ms = pre ++ m :: post ∧
        (applyMsgs E dflt o doc).filter Msg.isApplying = (pre ++ [m]).map (applyingTo o) ∧
        doAction E o doc pre = .ok r ∧ doOne E o r m.hd.addr = apply E dflt o doc) := by
  have hq' := hq
  rw [← checkQueries_iff] at hq'
  have hne : (findAll o.query doc).isEmpty = false := by
    rw [List.isEmpty_eq_false_iff, Ne, findAll_eq_nil, not_not]
    exact hm
  have hf : findAll o.query doc = o.query.flatMap (fun q => q.find doc) := by
    obtain ⟨m, hd, _⟩ := hm
    unfold findAll
    rw [if_neg hd]
  have ha : apply E dflt o doc = doAction E o doc (findAll o.query doc) := by
    unfold apply
    simp only [hq', Bool.not_true, Bool.false_eq_true, if_false, hne]
  have hl : (applyMsgs E dflt o doc).filter Msg.isApplying = actionMsgs E o doc (findAll o.query doc) := by
    unfold applyMsgs
    rw [List.cons_append, List.filter_cons_of_neg (by simp [Msg.isApplying]), List.filter_append, filter_check]
    simp only [hq', if_true, List.filter_append, filter_none (mem_findMsgs o.query), List.nil_append, hne, Bool.false_eq_true, if_false]
    rw [List.filter_eq_self]
    exact mem_actionMsgs E o _ _
  rw [ha, hl, hf]
  obtain ⟨_, h2, h3⟩ := actionMsgs_prefix E o (o.query.flatMap (fun q => q.find doc)) doc
  exact ⟨_, rfl, h2, h3⟩

/-- **C87**: otherwise it is not announced for any match. -/
theorem C87_not_applied (E : Sed) (dflt : Str) (o : Overlay) (doc : Node) (h : ¬ (Qualifies o doc ∧ ∃ m, Matches o.query doc m)) :
    ∀ m ∈ applyMsgs E dflt o doc, m.isApplying = false := by
  intro m hm
  by_contra hc
  rw [Bool.not_eq_false] at hc
  rw [mem_applyMsgs _ _ _ _ _ (by rintro t rfl; cases hc)] at hm
  rcases hm with rfl | rfl | ⟨_, _, rfl | hm⟩ | ⟨h1, h2, _⟩
  · cases hc
  · split at hc
    · cases hc
    · split at hc <;> cases hc
  · cases hc
  · rw [mem_onMissingMsgs _ _ _ _ _ (by rintro t rfl; cases hc)] at hm
    rcases hm with ⟨_, rfl⟩ | ⟨_, _, _, rfl⟩ <;> cases hc
  · exact h ⟨h1, h2⟩

/-- **C87**: every change is accounted for: if the document changes or there is an error, the log has an announcement for a match,
or says that nothing was matched (and then something is injected). -/
theorem C87_accounted (E : Sed) (dflt : Str) (o : Overlay) (doc : Node) (h : apply E dflt o doc ≠ .ok doc) :
    (∃ m ∈ applyMsgs E dflt o doc, m.isApplying = true) ∨ (.noResults ∈ applyMsgs E dflt o doc ∧ Injects dflt o.onMissing ∧
      ∀ a t, .ignoringNoPath a t ∉ applyMsgs E dflt o doc) := by
  have hq : Qualifies o doc := by
    by_contra hq
    exact h (C18_unqualified_overlay_is_identity E dflt o doc (.inl hq))
  by_cases hm : ∃ m, Matches o.query doc m
  · left
    obtain ⟨ms, hms, h1, h2⟩ := C87_applied E dflt o doc hq hm
    obtain ⟨m0, _, q, hq0, hm0⟩ := hm
    have : (applyMsgs E dflt o doc).filter Msg.isApplying ≠ [] := by
      cases ha : apply E dflt o doc with
      | ok r =>
        rw [h1 r ha, hms]
        intro hnil
        rw [List.map_eq_nil_iff] at hnil
        have := List.mem_flatMap (f := fun q => q.find doc) |>.2 ⟨q, hq0, hm0⟩
        rw [hnil] at this
        cases this
      | err e =>
        obtain ⟨pre, m, post, r, _, h3, _⟩ := h2 (by intro r hr; rw [ha] at hr; cases hr)
        rw [h3]; simp
      | panic =>
        obtain ⟨pre, m, post, r, _, h3, _⟩ := h2 (by intro r hr; rw [ha] at hr; cases hr)
        rw [h3]; simp
    obtain ⟨m, hm⟩ := List.exists_mem_of_ne_nil _ this
    exact ⟨m, (List.mem_filter.1 hm).1, (List.mem_filter.1 hm).2⟩
  · right
    refine ⟨(C87_no_results E dflt o doc).2 ⟨hq, hm⟩, ?_, ?_⟩
    · by_contra hi
      exact h (C18_unqualified_overlay_is_identity E dflt o doc (.inr ⟨hm, hi⟩))
    · intro a t hat
      exact h ((C87_no_path E dflt o doc a t).2 hat)

example : applyMsgs noSed c!"ignore" { name := c!"n", action := .replace, query := [textQuery c!"b", textQuery c!"z"], value := sc c!"x" } (dc (mp [sc c!"a", sc c!"b"])).label =
    [.checking c!"n", .noDocumentQueries, .searching c!"b", .searching c!"z", .applying c!"n" c!"replace" 0 0] := by decide
example : applyMsgs noSed c!"ignore" { name := c!"n", query := [textQuery c!"z"], value := sc c!"x" } (dc (mp [sc c!"a", sc c!"b"])).label =
    [.checking c!"n", .noDocumentQueries, .searching c!"z", .noResults, .ignoringNoInject Action.invalid.str c!"z"] := by decide
example : applyMsgs noSed c!"inject" { name := c!"n", query := [{ textQuery c!"z" with str := c!"a[?(@.b)]" }], value := sc c!"x" } (dc (mp [sc c!"a", sc c!"b"])).label =
    [.checking c!"n", .noDocumentQueries, .searching c!"a[?(@.b)]", .noResults, .ignoringNoPath Action.invalid.str c!"a[?(@.b)]"] := by decide
example : applyMsgs noSed c!"inject" { name := c!"n", documentQuery := [[⟨[textQuery c!"z"], .mk {} []⟩], [⟨[textQuery c!"b"], sc c!"c"⟩]] } (dc (mp [sc c!"a", sc c!"b"])).label =
    [.checking c!"n", .searching c!"z", .searching c!"b", .conditionsNotMet] := by decide

/-! ### C88 -/

theorem mem_pieceMatches (m : Mtch) (ps : List Piece) : m ∈ pieceMatches ps ↔ m.piece ∈ ps := by
  unfold pieceMatches
  rw [List.mem_filterMap]
  constructor
  · rintro ⟨p, hp, h⟩
    cases p with
    | text c => cases h
    | marker l => simp only [Option.some.injEq] at h; subst h; exact hp
    | command l c => simp only [Option.some.injEq] at h; subst h; exact hp
  · intro h
    refine ⟨_, h, ?_⟩
    obtain ⟨l, c⟩ := m
    cases c <;> rfl

/-- **C88**: a command is warned of exactly if it is one of the text's, is not empty, and is not a valid sed program or fails on the text it is
given. -/
theorem C88_warned (E : Sed) (x : Vals) (s c : Str) : c ∈ formatWarnings E x s ↔
    ∃ l, .command l c ∈ parse s ∧ c ≠ [] ∧ ¬ (E.compile c = true ∧ (E.run c (bare (x.get l))).2 = true) := by
  unfold formatWarnings
  rw [List.mem_filterMap, findMatches, findMatchesGo_eq, sanitizeVals_bare]
  constructor
  · rintro ⟨⟨l, cmd⟩, hm, h⟩
    rw [mem_pieceMatches] at hm
    cases cmd with
    | none => cases h
    | some c' =>
      simp only at h
      split at h
      · cases h
      · split at h
        · cases h
        · rename_i h1 h2
          cases h
          exact ⟨l, hm, by simpa using h1, by simpa using h2⟩
  · rintro ⟨l, hp, h1, h2⟩
    refine ⟨⟨l, some c⟩, (mem_pieceMatches _ _).2 hp, ?_⟩
    simp only [List.isEmpty_iff, h1, if_false]
    rw [if_neg (by simpa using h2)]

/-- **C88**: if there is no warning, the result is what an engine without failures would give: no failure goes unnoticed. -/
theorem C88_unnoticed (E : Sed) (x : Vals) (s : Str) (h : formatWarnings E x s = []) :
    format E s x = format { compile := fun _ => true, run := fun c t => ((E.run c t).1, true) } s x := by
  unfold format doFormat
  have key : ∀ (ms : List Mtch) (acc : Str), (∀ m ∈ ms, m ∈ findMatches s) →
      ms.foldl (fun acc m => replaceFirst m.text (substFor E (sanitizeVals x) m) acc) acc =
      ms.foldl (fun acc m => replaceFirst m.text (substFor { compile := fun _ => true, run := fun c t => ((E.run c t).1, true) } (sanitizeVals x) m) acc) acc := by
    intro ms
    induction ms with
    | nil => intros; rfl
    | cons m ms ih =>
      intro acc hms
      rw [List.foldl_cons, List.foldl_cons]
      have hs : substFor E (sanitizeVals x) m = substFor { compile := fun _ => true, run := fun c t => ((E.run c t).1, true) } (sanitizeVals x) m := by
        obtain ⟨l, c⟩ := m
        cases c with
        | none => rfl
        | some c =>
          by_cases hc : c.isEmpty = true
          · simp [substFor, hc]
          · have hw : c ∉ formatWarnings E x s := by rw [h]; simp
            rw [C88_warned] at hw
            have hm := hms ⟨l, some c⟩ (by simp)
            rw [findMatches, findMatchesGo_eq, mem_pieceMatches] at hm
            have : E.compile c = true ∧ (E.run c (bare (x.get l))).2 = true := by
              by_contra hn
              exact hw ⟨l, hm, by simpa using hc, hn⟩
            obtain ⟨h1, h2⟩ := this
            rw [← congrFun (sanitizeVals_bare x) l] at h2
            simp [substFor, hc, processSed, h1, h2]
      rw [hs]
      exact ih _ (fun m' hm' => hms m' (List.mem_cons_of_mem _ hm'))
  exact key _ _ (fun _ h => h)

/-- **C88**: a command that is not a valid sed program counts as none. -/
theorem C88_invalid (E : Sed) (x : Vals) (l : Char) (c : Str) (h : E.compile c = false) :
    substFor E x ⟨l, some c⟩ = substFor E x ⟨l, none⟩ := by
  simp [substFor, processSed, h]

/-- **C88**: the warnings are shown with the default level. -/
theorem C88_default_level : levelOf c!"warning" = some .warning ∧ Level.warning.shows .warning = true := by decide

example : formatWarnings noSed { v := c!"b" } c!"a%v{s/b/c/}-%l-%v{}" = [c!"s/b/c/"] ∧ format noSed c!"a%v{s/b/c/}" { v := c!"b" } = c!"ab" := by decide
example : formatWarnings dupSed { v := c!"b" } c!"a%v{d2}" = [] ∧ format dupSed c!"a%v{d2}" { v := c!"b" } = c!"abb" := by decide

end Yot
