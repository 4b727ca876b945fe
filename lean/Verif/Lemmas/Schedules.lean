import Verif.Lemmas.Execute
/-
Schedules that lead to given states.
-/
namespace Yot
open Spec

/-- Only worker `i` (and the overlay objects) may differ. -/
structure OnlyWorker (i : Nat) (s s' : State) : Prop where
  main : s'.main = s.main
  chan : s'.chan = s.chan
  taken : s'.taken = s.taken
  groupErr : s'.groupErr = s.groupErr
  chanClosed : s'.chanClosed = s.chanClosed
  crashed : s'.crashed = s.crashed
  others : ∀ j, j ≠ i → s'.workers j = s.workers j

theorem OnlyWorker.trans {i : Nat} {s s' s'' : State} (h : OnlyWorker i s s') (h' : OnlyWorker i s' s'') : OnlyWorker i s s'' :=
  ⟨h'.main.trans h.main, h'.chan.trans h.chan, h'.taken.trans h.taken, h'.groupErr.trans h.groupErr,
    h'.chanClosed.trans h.chanClosed, h'.crashed.trans h.crashed, fun j hj => (h'.others j hj).trans (h.others j hj)⟩

theorem OnlyWorker.set (i : Nat) (s : State) (w : Worker) : OnlyWorker i s (s.setWorker i w) :=
  ⟨rfl, rfl, rfl, rfl, rfl, rfl, fun _ hj => upd_of_ne _ _ _ _ hj⟩

/-- One workload of worker `i`, handed over and applied. -/
theorem solo_one {R : Run} (i : Nat) (hi : i < R.files.length) (w : Nat × Nat) (q : List (Nat × Nat)) (s : State) (h : Reach R s)
    (hc : s.crashed = false) (hp : (s.workers i).phase = .receiving) (hq : (s.workers i).queue = w :: q) :
    ∃ s', Reach R s' ∧
      ((∃ docs, workload R (s.workers i).docs w = .ok docs ∧ OnlyWorker i s s' ∧ (s'.workers i).phase = .receiving ∧
          (s'.workers i).queue = q ∧ (s'.workers i).docs = docs) ∨
       (∃ e, workload R (s.workers i).docs w = .err e ∧ OnlyWorker i s s' ∧
          (s'.workers i).phase = .returned (some (.overlay i e))) ∨
       (workload R (s.workers i).docs w = .panic ∧ s'.crashed = true)) := by
  have h1 := h.step (.send s i w q hc hi hp hq)
  have o1 := OnlyWorker.set i s { s.workers i with phase := .received w.1 w.2, queue := q }
  generalize hs1 : s.setWorker i { s.workers i with phase := .received w.1 w.2, queue := q } = s1 at h1 o1
  have hp1 : (s1.workers i).phase = .received w.1 w.2 := by rw [← hs1]; simp [State.setWorker]
  have hq1 : (s1.workers i).queue = q := by rw [← hs1]; simp [State.setWorker]
  have hd1 : (s1.workers i).docs = (s.workers i).docs := by rw [← hs1]; simp [State.setWorker]
  have hc1 : s1.crashed = false := o1.crashed.trans hc
  have h2 := h1.step (.read s1 i w.1 w.2 hc1 hi hp1)
  have o2 := o1.trans (OnlyWorker.set i s1 { s1.workers i with phase := .applying w.1 w.2 (s1.overlays w.2) })
  generalize hs2 : s1.setWorker i { s1.workers i with phase := .applying w.1 w.2 (s1.overlays w.2) } = s2 at h2 o2
  have hp2 : (s2.workers i).phase = .applying w.1 w.2 (s1.overlays w.2) := by rw [← hs2]; simp [State.setWorker]
  have hq2 : (s2.workers i).queue = q := by rw [← hs2]; simp [State.setWorker, hq1]
  have hd2 : (s2.workers i).docs = (s.workers i).docs := by rw [← hs2]; simp [State.setWorker, hd1]
  have hc2 : s2.crashed = false := o2.crashed.trans hc
  have hinv := reach_workers h2 i hi
  unfold Worker.Inv at hinv
  rw [hp2] at hinv
  have h3 := h2.step (.apply s2 i w.1 w.2 _ hc2 hi hp2)
  have hcases := applyStep_cases R s2 i (s2.workers i) w.1 w.2 (s1.overlays w.2)
  have o3 : (applyStep R s2 i (s2.workers i) w.1 w.2 (s1.overlays w.2)).crashed = s2.crashed →
      (∃ w', (applyStep R s2 i (s2.workers i) w.1 w.2 (s1.overlays w.2)).workers = upd s2.workers i w') →
      OnlyWorker i s (applyStep R s2 i (s2.workers i) w.1 w.2 (s1.overlays w.2)) := by
    rintro hcr ⟨w', hw'⟩
    refine o2.trans ⟨by simp, by simp, by simp, by simp, by simp, hcr, ?_⟩
    intro j hj
    rw [hw', upd_of_ne _ _ _ _ hj]
  cases hcases with
  | ok w' hq' hcl' hp' hd hw' hcr =>
    refine ⟨_, h3, .inl ⟨w'.docs, ?_, o3 hcr ⟨w', hw'⟩, ?_, ?_, ?_⟩⟩
    · rw [← hd2]; exact hd hinv.2
    · rw [hw', upd_self, hp']
    · rw [hw', upd_self, hq', hq2]
    · rw [hw', upd_self]
  | err e hd hw' hcr =>
    exact ⟨_, h3, .inr (.inl ⟨e, by rw [← hd2]; exact hd hinv.2, o3 hcr ⟨_, hw'⟩, by rw [hw', upd_self]⟩)⟩
  | panic hd hw' hcr =>
    exact ⟨_, h3, .inr (.inr ⟨by rw [← hd2]; exact hd hinv.2, hcr⟩)⟩

/-- Worker `i` on its own from the handler's loop to the `select`, to its error, or to a crash. -/
theorem solo_all {R : Run} (i : Nat) (hi : i < R.files.length)
    (q : List (Nat × Nat)) : ∀ s, Reach R s → s.crashed = false → (s.workers i).phase = .receiving → (s.workers i).queue = q →
    ∃ s', Reach R s' ∧
      ((∃ docs, resultFor R i = .ok docs ∧ OnlyWorker i s s' ∧ (s'.workers i).phase = .selecting) ∨
       (∃ e, resultFor R i = .err e ∧ OnlyWorker i s s' ∧ (s'.workers i).phase = .returned (some (.overlay i e))) ∨
       (resultFor R i = .panic ∧ s'.crashed = true)) := by
  induction q with
  | nil =>
    intro s h hc hp hq
    have hinv := reach_workers h i hi
    unfold Worker.Inv at hinv
    rw [hp] at hinv
    simp only [Phase.Inv, hq, restFor_nil] at hinv
    cases hcl : (s.workers i).closed with
    | true =>
      rw [((reach_sender h i hi).1 hcl).1] at hinv
      refine ⟨_, h.step (.handled s i hc hi hp hq hcl), .inl ⟨_, hinv, OnlyWorker.set i s _, ?_⟩⟩
      simp [State.setWorker]
    | false =>
      cases hgo : R.stops i with
      | true =>
        rw [hgo] at hinv
        exact ⟨_, h.step (.senderNil s i hc hi (by simp [hp]) hq hcl hgo), .inr (.inr ⟨hinv, rfl⟩)⟩
      | false =>
        rw [hgo] at hinv
        have h1 := h.step (.closeStream s i hc hi (by simp [hp]) hq hcl hgo)
        refine ⟨_, h1.step (.handled _ i hc hi ?_ ?_ ?_), .inl ⟨_, hinv, (OnlyWorker.set i s _).trans (OnlyWorker.set i _ _), ?_⟩⟩
        · simp [State.setWorker, hp]
        · simp [State.setWorker, hq]
        · simp [State.setWorker]
        · simp [State.setWorker]
  | cons w q ih =>
    intro s h hc hp hq
    have hinv := reach_workers h i hi
    unfold Worker.Inv at hinv
    rw [hp] at hinv
    simp only [Phase.Inv, hq] at hinv
    obtain ⟨s1, r1, ⟨docs, hw, o1, hp1, hq1, hd1⟩ | ⟨e, hw, o1, hp1⟩ | ⟨hw, hc1⟩⟩ := solo_one i hi w q s h hc hp hq
    · obtain ⟨s', r', ⟨d, h1, o', h2⟩ | ⟨e, h1, o', h2⟩ | h3⟩ := ih s1 r1 (o1.crashed.trans hc) hp1 hq1
      · exact ⟨s', r', .inl ⟨d, h1, o1.trans o', h2⟩⟩
      · exact ⟨s', r', .inr (.inl ⟨e, h1, o1.trans o', h2⟩)⟩
      · exact ⟨s', r', .inr (.inr h3)⟩
    · rw [restFor_err hw] at hinv
      exact ⟨s1, r1, .inr (.inl ⟨e, hinv, o1, hp1⟩)⟩
    · rw [restFor_panic hw] at hinv
      exact ⟨s1, r1, .inr (.inr ⟨hinv, hc1⟩)⟩

/-- Worker `i` on its own from the handler's loop to the `select`, or to its error. -/
theorem solo {R : Run} (i : Nat) (hi : i < R.files.length) (hnp : resultFor R i ≠ .panic)
    (q : List (Nat × Nat)) (s : State) (h : Reach R s) (hc : s.crashed = false) (hp : (s.workers i).phase = .receiving)
    (hq : (s.workers i).queue = q) :
    ∃ s', Reach R s' ∧ OnlyWorker i s s' ∧
      ((∃ docs, resultFor R i = .ok docs ∧ (s'.workers i).phase = .selecting) ∨
       (∃ e, resultFor R i = .err e ∧ (s'.workers i).phase = .returned (some (.overlay i e)))) := by
  obtain ⟨s', r', ⟨d, h1, o', h2⟩ | ⟨e, h1, o', h2⟩ | h3⟩ := solo_all i hi q s h hc hp hq
  · exact ⟨s', r', o', .inl ⟨d, h1, h2⟩⟩
  · exact ⟨s', r', o', .inr ⟨e, h1, h2⟩⟩
  · exact absurd h3.1 hnp

/-- The sender of worker `i` meets the nil pointer behind its last workload. -/
theorem solo_nil {R : Run} (i : Nat) (hi : i < R.files.length) (hgo : R.stops i = true)
    (q : List (Nat × Nat)) : ∀ s, Reach R s → s.crashed = false → (s.workers i).phase = .receiving → (s.workers i).queue = q →
    (∃ docs, workloads R (s.workers i).docs q.dropLast = .ok docs) → ∃ s', Reach R s' ∧ s'.crashed = true := by
  have hopen : ∀ s, Reach R s → (s.workers i).closed = false := by
    intro s h
    cases hcl : (s.workers i).closed with
    | false => rfl
    | true => have := ((reach_sender h i hi).1 hcl).1; rw [hgo] at this; cases this
  induction q with
  | nil =>
    intro s h hc hp hq _
    exact ⟨_, h.step (.senderNil s i hc hi (by simp [hp]) hq (hopen s h) hgo), rfl⟩
  | cons w q ih =>
    intro s h hc hp hq hd
    cases q with
    | nil =>
      have h1 := h.step (.send s i w [] hc hi hp hq)
      refine ⟨_, h1.step (.senderNil _ i hc hi ?_ ?_ (hopen _ h1) hgo), rfl⟩
      · simp [State.setWorker]
      · simp [State.setWorker]
    | cons x q =>
      rw [List.dropLast_cons_of_ne_nil (by simp), workloads_cons] at hd
      obtain ⟨s1, r1, ⟨docs, hw, o1, hp1, hq1, hd1⟩ | ⟨e, hw, o1, hp1⟩ | ⟨hw, hc1⟩⟩ := solo_one i hi w _ s h hc hp hq
      · rw [hw, Res.bind_ok, ← hd1] at hd
        exact ih s1 r1 (o1.crashed.trans hc) hp1 hq1 hd
      · rw [hw] at hd; obtain ⟨_, hd⟩ := hd; cases hd
      · exact ⟨s1, r1, hc1⟩

/-- Start all workers. -/
theorem all_started (R : Run) : ∃ s, Reach R s ∧ s.crashed = false ∧ s.main = .receiving ∧ s.chan = [] ∧ s.taken = [] ∧
    s.groupErr = none ∧ s.chanClosed = false ∧ (∀ i, i < R.files.length → (s.workers i).phase = .receiving) ∧
    ∀ i, (s.workers i).queue = R.work i ∧ (s.workers i).docs = (R.file i).nodes := by
  have key : ∀ k, k ≤ R.files.length → ∃ s, Reach R s ∧ s.crashed = false ∧ s.main = .spawning k ∧ s.chan = [] ∧ s.taken = [] ∧
      s.groupErr = none ∧ s.chanClosed = false ∧ (∀ i, i < k → (s.workers i).phase = .receiving) ∧
      ∀ i, (s.workers i).queue = R.work i ∧ (s.workers i).docs = (R.file i).nodes := by
    intro k
    induction k with
    | zero => intro _; exact ⟨_, .start, rfl, rfl, rfl, rfl, rfl, rfl, by simp, fun _ => ⟨rfl, rfl⟩⟩
    | succ k ih =>
      intro hk
      obtain ⟨s, h, hc, hm, h1, h2, h3, h4, h5, h6⟩ := ih (by omega)
      refine ⟨_, h.step (.spawn s k hc hm hk), hc, rfl, h1, h2, h3, h4, ?_, ?_⟩
      rotate_left
      · intro i
        simp only [State.setWorker]
        by_cases hik : i = k
        · subst hik; rw [upd_self]; exact h6 i
        · rw [upd_of_ne _ _ _ _ hik]; exact h6 i
      intro i hi
      simp only [State.setWorker]
      by_cases hik : i = k
      · subst hik; rw [upd_self]
      · rw [upd_of_ne _ _ _ _ hik]; exact h5 i (by omega)
  obtain ⟨s, h, hc, hm, h1, h2, h3, h4, h5, h6⟩ := key _ (Nat.le_refl _)
  exact ⟨_, h.step (.listen s hc hm), hc, rfl, h1, h2, h3, h4, h5, h6⟩

/-- Let the workers of the listed files deliver one after the other. -/
theorem deliver_all {R : Run} (is : List Nat) (hnd : is.Nodup) (hi : ∀ i ∈ is, i < R.files.length)
    (hok : ∀ i ∈ is, ∃ docs, resultFor R i = .ok docs) :
    ∃ s, Reach R s ∧ s.crashed = false ∧ s.main = .receiving ∧ s.chan = is ∧ s.taken = [] ∧ s.groupErr = none ∧ s.chanClosed = false ∧
      ∀ i, i < R.files.length → (s.workers i).phase = if i ∈ is then .returned none else .receiving := by
  have key : ∀ (ks : List Nat) (js : List Nat), (js ++ ks) = is → ∀ s, Reach R s → s.crashed = false → s.main = .receiving → s.chan = js → s.taken = [] →
      s.groupErr = none → s.chanClosed = false →
      (∀ i, i < R.files.length → (s.workers i).phase = if i ∈ js then .returned none else .receiving) →
      ∃ s, Reach R s ∧ s.crashed = false ∧ s.main = .receiving ∧ s.chan = is ∧ s.taken = [] ∧ s.groupErr = none ∧ s.chanClosed = false ∧
        ∀ i, i < R.files.length → (s.workers i).phase = if i ∈ is then .returned none else .receiving := by
    intro ks
    induction ks with
    | nil =>
      intro js hjs s h hc hm h1 h2 h3 h4 h5
      rw [List.append_nil] at hjs
      subst hjs
      exact ⟨s, h, hc, hm, h1, h2, h3, h4, h5⟩
    | cons k ks ih =>
      intro js hjs s h hc hm h1 h2 h3 h4 h5
      have hk : k ∈ is := by rw [← hjs]; simp
      have hkj : k ∉ js := by
        intro hc
        rw [← hjs, List.nodup_append] at hnd
        exact hnd.2.2 k hc k (by simp) rfl
      obtain ⟨docs, hd⟩ := hok k hk
      obtain ⟨s', r', o', hfin⟩ := solo k (hi k hk) (by rw [hd]; simp) _ s h hc (by rw [h5 k (hi k hk), if_neg hkj]) rfl
      have hsel : (s'.workers k).phase = .selecting := by
        rcases hfin with ⟨_, _, hs⟩ | ⟨e, he, _⟩
        · exact hs
        · rw [hd] at he; cases he
      have r'' := r'.step (.deliver s' k (o'.crashed.trans hc) (hi k hk) hsel (o'.chanClosed.trans h4) (reach_room r' k (hi k hk) hsel))
      refine ih (js ++ [k]) (by simpa using hjs) _ r'' (o'.crashed.trans hc) (o'.main.trans hm) ?_ (o'.taken.trans h2) (o'.groupErr.trans h3)
        (o'.chanClosed.trans h4) ?_
      · show s'.chan ++ [k] = _
        rw [o'.chan, h1]
      · intro i hil
        simp only [State.setWorker]
        by_cases hik : i = k
        · subst hik; rw [upd_self, if_pos (by simp)]
        · rw [upd_of_ne _ _ _ _ hik, o'.others i hik, h5 i hil]
          simp [hik]
  obtain ⟨s, h, hc, hm, h1, h2, h3, h4, h5, _⟩ := all_started R
  exact key is [] rfl s h hc hm h1 h2 h3 h4 (by simpa using h5)

/-- Nothing more will be delivered: either all workers have delivered, or the group has an
error and the others may give up. -/
def Quiet (R : Run) (s : State) : Prop :=
  s.groupErr.isSome = true ∨ ∀ i, i < R.files.length → (s.workers i).phase.sent = true

/-- A step that delivers nothing. -/
theorem quiet_step {R : Run} {s : State} (h : Reach R s) (hq : Quiet R s) (ho : ¬ s.over) :
    ∃ s', RStep R s s' ∧ Quiet R s' ∧ s'.taken ++ s'.chan = s.taken ++ s.chan ∧ (s.groupErr.isSome = true → s'.groupErr = s.groupErr) := by
  have hc : s.crashed = false := by
    cases hcr : s.crashed with
    | false => rfl
    | true => exact absurd (.inl hcr) ho
  obtain ⟨s', hs⟩ := progress h ho
  have keep : ∀ s', s'.groupErr = s.groupErr → (∀ i, i < R.files.length → (s.workers i).phase.sent = true → (s'.workers i).phase.sent = true) → Quiet R s' := by
    intro s' hg hw
    rcases hq with hq | hq
    · exact .inl (by rw [hg]; exact hq)
    · exact .inr (fun i hi => hw i hi (hq i hi))
  have keepw : ∀ i w, ((s.workers i).phase.sent = true → w.phase.sent = true) →
      ∀ j, j < R.files.length → (s.workers j).phase.sent = true → ((s.setWorker i w).workers j).phase.sent = true := by
    intro i w hw j _ hj
    simp only [State.setWorker]
    by_cases hji : j = i
    · subst hji; rw [upd_self]; exact hw hj
    · rw [upd_of_ne _ _ _ _ hji]; exact hj
  have hs0 := hs
  cases hs with
  | spawn k hcr hm hk => exact ⟨_, hs0, keep _ rfl (keepw k _ (fun hse => by
      have := ((reach_started h).2 k hk).2 (by simp [State.spawned, hm])
      rw [this] at hse; cases hse)), rfl, fun _ => rfl⟩
  | listen hcr hm => exact ⟨_, hs0, keep _ rfl (fun _ _ h => h), rfl, fun _ => rfl⟩
  | send i w q hcr hi hp hqq => exact ⟨_, hs0, keep _ rfl (keepw i _ (by simp [hp, Phase.sent])), rfl, fun _ => rfl⟩
  | closeStream i hcr hi hp hqq hcl hgo => exact ⟨_, hs0, keep _ rfl (keepw i _ (fun h => h)), rfl, fun _ => rfl⟩
  | read i d p hcr hi hp => exact ⟨_, hs0, keep _ rfl (keepw i _ (by simp [hp, Phase.sent])), rfl, fun _ => rfl⟩
  | apply i d p o hcr hi hp =>
    refine ⟨_, hs0, keep _ (by simp) ?_, by simp, fun _ => by simp⟩
    cases applyStep_cases R s i (s.workers i) d p o with
    | ok w' hq' hcl' hp' hd hw' hcr => rw [hw']; exact keepw i w' (by simp [hp, Phase.sent])
    | err e hd hw' hcr => rw [hw']; exact keepw i _ (by simp [hp, Phase.sent])
    | panic hd hw' hcr => rw [hw']; exact fun _ _ h => h
  | handled i hcr hi hp hqq hcl => exact ⟨_, hs0, keep _ rfl (keepw i _ (by simp [hp, Phase.sent])), rfl, fun _ => rfl⟩
  | deliver i hcr hi hp hcl hlen =>
    rcases hq with hq | hq
    · exact ⟨_, .giveUp s i hc hi hp hq, .inl hq, rfl, fun _ => rfl⟩
    · have := hq i hi; rw [hp] at this; cases this
  | deliverClosed i hcr hi hp hcl => exact ⟨_, hs0, keep _ rfl (fun _ _ h => h), rfl, fun _ => rfl⟩
  | senderNil i hcr hi hp hqq hcl hgo => exact ⟨_, hs0, keep _ rfl (fun _ _ h => h), rfl, fun _ => rfl⟩
  | giveUp i hcr hi hp he => exact ⟨_, hs0, .inl he, rfl, fun _ => rfl⟩
  | finish i r hcr hi hp =>
    refine ⟨_, hs0, ?_, rfl, ?_⟩
    · rcases hq with hq | hq
      · left
        simp only [finishStep]
        cases hg : s.groupErr with
        | none => rw [hg] at hq; cases hq
        | some e => rfl
      · right
        intro j hj
        refine keepw i _ ?_ j hj (hq j hj)
        rw [hp]; cases r <;> simp [Phase.sent]
    · intro hg
      simp only [finishStep]
      cases hg' : s.groupErr with
      | none => rw [hg'] at hg; cases hg
      | some e => rfl
  | closeChan hcr hm hd hcl => exact ⟨_, hs0, keep _ rfl (fun _ _ h => h), rfl, fun _ => rfl⟩
  | take i c hcr hm hch =>
    refine ⟨_, hs0, keep _ (by simp) (by simp), ?_, fun _ => by simp⟩
    rw [takeStep_taken, takeStep_chan, hch]; simp
  | drained hcr hm hch hcl => exact ⟨_, hs0, keep _ rfl (fun _ _ h => h), rfl, fun _ => rfl⟩
  | wait hcr hm hd => exact ⟨_, hs0, keep _ rfl (fun _ _ h => h), rfl, fun _ => rfl⟩

/-- Run on quietly to the end. -/
theorem quiet_end {R : Run} (n : Nat) : ∀ s, s.weight R.files.length ≤ n → Reach R s → Quiet R s →
    ∃ s', Reach R s' ∧ s'.over ∧ s'.taken ++ s'.chan = s.taken ++ s.chan ∧ (s.groupErr.isSome = true → s'.groupErr = s.groupErr) := by
  induction n with
  | zero =>
    intro s hn h hq
    by_cases ho : s.over
    · exact ⟨s, h, ho, rfl, fun _ => rfl⟩
    · obtain ⟨s', hs, _⟩ := quiet_step h hq ho
      have := step_weight hs
      omega
  | succ n ih =>
    intro s hn h hq
    by_cases ho : s.over
    · exact ⟨s, h, ho, rfl, fun _ => rfl⟩
    · obtain ⟨s', hs, hq', ht, hg⟩ := quiet_step h hq ho
      have := step_weight hs
      obtain ⟨s'', r, ho', ht', hg'⟩ := ih s' (by omega) (h.step hs) hq'
      refine ⟨s'', r, ho', ht'.trans ht, ?_⟩
      intro hgs
      have h1 := hg hgs
      rw [hg' (by rw [h1]; exact hgs), h1]

end Yot
