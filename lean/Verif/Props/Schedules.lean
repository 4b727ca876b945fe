import Verif.Lemmas.Schedules
import Verif.Props.Execute
/-
C50, C51: what schedules can lead to.
-/
namespace Yot
open Spec

/-- How `Execute` came to return. -/
theorem reach_end {R : Run} {s : State} (h : Reach R s) (r : Option RunErr) (hr : s.main = .returned r) :
    (s.chan = [] ∧ s.chanClosed = true ∧ s.groupErr = r) ∨
    (∃ i ∈ s.taken, (∃ e, r = some (.render i e)) ∨ r = some (.write i)) := by
  induction h with
  | start => simp [State.init] at hr
  | @step s0 s1 h0 hs ih =>
    have notdone : s0.chanClosed = true → ∀ i, i < R.files.length → (∀ r, (s0.workers i).phase ≠ .done r) → False := by
      intro hcl i hi hd
      obtain ⟨r, hr⟩ := (reach_closed h0 hcl).1 i hi
      exact hd r hr
    have away : ∀ s1 : State, s1.main = s0.main → s1.taken = s0.taken →
        (s0.chanClosed = true → False) → s1.main = .returned r →
        (s1.chan = [] ∧ s1.chanClosed = true ∧ s1.groupErr = r) ∨ (∃ i ∈ s1.taken, (∃ e, r = some (.render i e)) ∨ r = some (.write i)) := by
      intro s1 hm ht hno hr
      rcases ih (by rw [← hm]; exact hr) with ⟨_, h2, _⟩ | h1
      · exact (hno h2).elim
      · right; rw [ht]; exact h1
    cases hs with
    | spawn k hcr hm hk => cases hr
    | listen hcr hm => cases hr
    | send i w q hcr hi hp hqq => exact away _ rfl rfl (fun hcl => notdone hcl i hi (by simp [hp])) hr
    | closeStream i hcr hi hp hqq hcl hgo => exact ih hr
    | read i d p hcr hi hp => exact away _ rfl rfl (fun hcl => notdone hcl i hi (by simp [hp])) hr
    | apply i d p o hcr hi hp => exact away _ (by simp) (by simp) (fun hcl => notdone hcl i hi (by simp [hp])) hr
    | handled i hcr hi hp hqq hcl => exact away _ rfl rfl (fun hcl => notdone hcl i hi (by simp [hp])) hr
    | deliver i hcr hi hp hcl hlen => exact away _ rfl rfl (fun hcl => notdone hcl i hi (by simp [hp])) hr
    | deliverClosed i hcr hi hp hcl => exact ih hr
    | senderNil i hcr hi hp hqq hcl hgo => exact ih hr
    | giveUp i hcr hi hp he => exact away _ rfl rfl (fun hcl => notdone hcl i hi (by simp [hp])) hr
    | finish i r' hcr hi hp => exact away _ rfl rfl (fun hcl => notdone hcl i hi (by simp [hp])) hr
    | closeChan hcr hm hd hcl =>
      rcases ih hr with ⟨h1, h2, h3⟩ | h1
      · exact .inl ⟨h1, rfl, h3⟩
      · exact .inr h1
    | take i c hcr hm hch =>
      right
      rw [takeStep_taken]
      refine ⟨i, by simp, ?_⟩
      cases takeStep_cases R s0 i c with
      | skip _ h' _ _ => rw [h', hm] at hr; cases hr
      | write _ _ _ h' _ _ => rw [h', hm] at hr; cases hr
      | writeFails _ _ _ h' _ _ => rw [h'] at hr; cases hr; exact .inr rfl
      | err e _ h' _ _ => rw [h'] at hr; cases hr; exact .inl ⟨e, rfl⟩
      | panic _ h' _ _ => rw [h', hm] at hr; cases hr
    | drained hcr hm hch hcl => cases hr
    | wait hcr hm hd =>
      obtain ⟨h1, h2, _⟩ := reach_waiting h0 (.inl hm)
      simp only [Main.returned.injEq] at hr
      exact .inl ⟨h2, h1, hr⟩

/-- No render or write error for files that can be processed. -/
theorem no_late_error {R : Run} (hw : ∀ log o, o ∈ expected R → R.writeFails log o = false) {s : State} (h : Reach R s)
    (r : Option RunErr) (hr : s.main = .returned r) (hok : ∀ i ∈ s.taken, Processes R i) :
    s.chan = [] ∧ s.groupErr = r := by
  rcases reach_end h r hr with ⟨h1, _, h3⟩ | ⟨i, hi, hx⟩
  · exact ⟨h1, h3⟩
  · exfalso
    have hp := hok i hi
    rcases hx with ⟨e, rfl⟩ | rfl
    · rcases reach_returned h _ hr with ⟨j, e', _, he, _⟩ | ⟨j, e', docs, _, he, hd, hre⟩ | ⟨j, o, pre, _, he, _⟩
      · cases he
      · cases he
        obtain ⟨d, r, h1, h2⟩ := hp
        rw [h1] at hd; cases hd; rw [h2] at hre; cases hre
      · cases he
    · rcases reach_returned h _ hr with ⟨j, e', _, he, _⟩ | ⟨j, e', docs, _, he, hd, hre⟩ | ⟨j, o, pre, hj, he, ho, _, hf⟩
      · cases he
      · cases he
      · rw [hw pre o (mem_expected hj ho)] at hf; cases hf

/-- **C51**, how false it is: whenever all files can be processed, every order of the files is
the order of the outputs under some schedule. -/
theorem C51_every_order (R : Run) (hok : ∀ i, i < R.files.length → Processes R i)
    (hw : ∀ log o, o ∈ expected R → R.writeFails log o = false)
    (order : List Nat) (ho : order.Perm (List.range R.files.length)) :
    ∃ s, Reach R s ∧ Returned s none ∧ s.log = order.filterMap (outputFor R) ∧ printed s.log = (order.filterMap (outputFor R)).flatMap Out.text := by
  have hmem : ∀ i, i ∈ order ↔ i < R.files.length := fun i => by rw [ho.mem_iff, List.mem_range]
  have hnc : ∀ i, i < R.files.length → ¬ Crashes R i := fun i hi => not_crashes (hok i hi)
  obtain ⟨s, h, hc, hm, h1, h2, h3, h4, h5⟩ := deliver_all order (ho.nodup_iff.2 List.nodup_range) (fun i hi => (hmem i).1 hi)
    (fun i hi => by obtain ⟨d, _, hd, _⟩ := hok i ((hmem i).1 hi); exact ⟨d, hd⟩)
  obtain ⟨s', r', hover, ht, hg⟩ := quiet_end _ s (Nat.le_refl _) h (.inr (fun i hi => by rw [h5 i hi, if_pos ((hmem i).2 hi)]; rfl))
  have hcr := C47_no_crash R s' r' hnc
  rcases hover with hx | ⟨r, hr⟩
  · rw [hcr] at hx; cases hx
  · have hn := (C48_succeeds R hok hw s' r').2 r hr
    subst hn
    have htk : ∀ i ∈ s'.taken, Processes R i := fun i hi => by
      have : i ∈ s'.taken ++ s'.chan := List.mem_append_left _ hi
      rw [ht, h1, h2] at this
      exact hok i ((hmem i).1 (by simpa using this))
    obtain ⟨hch, _⟩ := no_late_error hw r' none hr htk
    have hlog := reach_log r'
    rw [hch, h1, h2, List.append_nil, List.nil_append] at ht
    rw [ht] at hlog
    exact ⟨s', r', hr, hlog, by rw [hlog]; rfl⟩

/-- **C50** is about successful runs only, and this is how far it fails for others: if the overlays of
a file fail, then for any of the other files that can be processed, in any order, some schedule outputs
exactly these before the error is reported. -/
theorem C50_failure_any_outputs (R : Run) (hnc : ∀ i, i < R.files.length → ¬ Crashes R i)
    (hw : ∀ log o, o ∈ expected R → R.writeFails log o = false)
    (f : Nat) (hf : f < R.files.length) (e : Err) (he : resultFor R f = .err e)
    (some : List Nat) (hnd : some.Nodup) (hs : ∀ i ∈ some, i < R.files.length ∧ Processes R i) :
    ∃ s, Reach R s ∧ Returned s (.some (.overlay f e)) ∧ s.log = some.filterMap (outputFor R) := by
  have hfs : f ∉ some := by
    intro hc
    obtain ⟨d, _, hd, _⟩ := (hs f hc).2
    rw [he] at hd; cases hd
  obtain ⟨s, h, hc, hm, h1, h2, h3, h4, h5⟩ := deliver_all some hnd (fun i hi => (hs i hi).1)
    (fun i hi => by obtain ⟨d, _, hd, _⟩ := (hs i hi).2; exact ⟨d, hd⟩)
  obtain ⟨s1, r1, o1, hfin⟩ := solo f hf (by rw [he]; simp) _ s h hc (by rw [h5 f hf, if_neg hfs]) rfl
  have hret : (s1.workers f).phase = .returned (.some (.overlay f e)) := by
    rcases hfin with ⟨d, hd, _⟩ | ⟨e', he', hp⟩
    · rw [he] at hd; cases hd
    · rw [he] at he'; cases he'; exact hp
  have r2 := r1.step (.finish s1 f _ (o1.crashed.trans hc) hf hret)
  have hg2 : (finishStep s1 f (s1.workers f) (.some (.overlay f e))).groupErr = .some (.overlay f e) := by
    simp [finishStep, o1.groupErr, h3]
  obtain ⟨s', r', hover, ht, hg⟩ := quiet_end _ _ (Nat.le_refl _) r2 (.inl (by rw [hg2]; rfl))
  have hg := hg (by rw [hg2]; rfl)
  rw [hg2] at hg
  have htc : (finishStep s1 f (s1.workers f) (.some (.overlay f e))).taken ++ (finishStep s1 f (s1.workers f) (.some (.overlay f e))).chan = some := by
    show s1.taken ++ s1.chan = some
    rw [o1.taken, o1.chan, h1, h2, List.nil_append]
  rw [htc] at ht
  have hcr := C47_no_crash R s' r' hnc
  rcases hover with hx | ⟨r, hr⟩
  · rw [hcr] at hx; cases hx
  · have htk : ∀ i ∈ s'.taken, Processes R i := fun i hi => (hs i (by rw [← ht]; exact List.mem_append_left _ hi)).2
    obtain ⟨hch, hge⟩ := no_late_error hw r' r hr htk
    have hlog := reach_log r'
    rw [hch, List.append_nil] at ht
    rw [ht] at hlog
    exact ⟨s', r', by rw [← hg, hge]; exact hr, hlog⟩

/-- **C47**, exactly: some schedule leads to a crash if and only if processing some file by itself can
crash. -/
theorem C47_crash_iff (R : Run) : (∃ s, Reach R s ∧ s.crashed = true) ↔ ∃ i, i < R.files.length ∧ Crashes R i := by
  constructor
  · rintro ⟨s, h, hc⟩
    exact reach_crashed h hc
  · rintro ⟨i, hi, h⟩
    obtain ⟨s, h0, hc, hm, h1, h2, h3, h4, h5, h6⟩ := all_started R
    rcases h with h | ⟨docs, hd, hr⟩ | ⟨hgo, hd⟩
    · obtain ⟨s', r', ⟨d, h1, _⟩ | ⟨e, h1, _⟩ | h3⟩ := solo_all i hi _ s h0 hc (h5 i hi) rfl
      · rw [h] at h1; cases h1
      · rw [h] at h1; cases h1
      · exact ⟨s', r', h3.2⟩
    · obtain ⟨s, h, hc, hm, h1, h2, h3, h4, h5⟩ := deliver_all (R := R) [i] (by simp) (by simpa using hi) (by simpa using ⟨docs, hd⟩)
      refine ⟨_, h.step (.take s i [] hc hm h1), ?_⟩
      have hds := (reach_docs h i (by rw [h1]; simp)).2
      rw [hd] at hds
      cases takeStep_cases R s i [] with
      | panic _ _ _ hcr => exact hcr
      | skip hr' _ _ _ => rw [← Res.ok.inj hds, hr] at hr'; cases hr'
      | write _ hr' _ _ _ _ => rw [← Res.ok.inj hds, hr] at hr'; cases hr'
      | writeFails _ hr' _ _ _ _ => rw [← Res.ok.inj hds, hr] at hr'; cases hr'
      | err _ hr' _ _ _ => rw [← Res.ok.inj hds, hr] at hr'; cases hr'
    · exact solo_nil i hi hgo _ s h0 hc (h5 i hi) rfl (by rw [(h6 i).1, (h6 i).2]; exact hd)

example : ∃ s, Reach twoFiles s ∧ Returned s none ∧ s.log = [1, 0].filterMap (outputFor twoFiles) ∧ printed s.log = c!"---\nb\n---\na\n" := by
  obtain ⟨s, h1, h2, h3, h4⟩ := C51_every_order twoFiles
    (by intro i hi; match i, hi with | 0, _ => exact ⟨_, _, rfl, rfl⟩ | 1, _ => exact ⟨_, _, rfl, rfl⟩) (fun _ _ _ => rfl) [1, 0] (by decide)
  exact ⟨s, h1, h2, h3, by rw [h4]; decide⟩

end Yot
