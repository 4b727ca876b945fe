import Verif.Lemmas.Execute
import Verif.Spec.Log
import Verif.Props.Execute
/-
The log of a run.
-/
namespace Yot
open Spec

theorem LStep.toRStep {R : Run} {s s' : State} {m : List (Nat × Msg)} (h : LStep R s m s') : RStep R s s' := by
  cases h with
  | read i d p h1 h2 h3 => exact .read s i d p h1 h2 h3
  | apply i d p o h1 h2 h3 => exact .apply s i d p o h1 h2 h3
  | take i r h1 h2 h3 => exact .take s i r h1 h2 h3
  | other _ h1 _ _ _ => exact h1

theorem Logged.reach {R : Run} {s : State} {l : List (Nat × Msg)} (h : Logged R s l) : Reach R s := by
  induction h with
  | start => exact .start
  | step _ hs ih => exact .step ih hs.toRStep

/-- Every step logs something, or nothing. -/
theorem RStep.logs {R : Run} {s s' : State} (hr : Reach R s) (h : RStep R s s') : ∃ m, LStep R s m s' := by
  have key : ∀ (i : Nat) (w : Worker) (s' : State), RStep R s s' → s'.taken = s.taken → s'.workers = upd s.workers i w →
      (∀ d p, (s.workers i).phase = .received d p → w.phase = .received d p) →
      (∀ d p o, (s.workers i).phase = .applying d p o → w.phase = .applying d p o) → ∃ m, LStep R s m s' := by
    intro i w s' hs ht hw h1 h2
    refine ⟨[], .other s s' hs ht ?_ ?_⟩
    · intro j d p hj
      rw [hw]
      by_cases hji : j = i
      · subst hji; rw [upd_self]; exact h1 d p hj
      · rw [upd_of_ne _ _ _ _ hji]; exact hj
    · intro j d p o hj
      rw [hw]
      by_cases hji : j = i
      · subst hji; rw [upd_self]; exact h2 d p o hj
      · rw [upd_of_ne _ _ _ _ hji]; exact hj
  have same : ∀ s' : State, RStep R s s' → s'.taken = s.taken → s'.workers = s.workers → ∃ m, LStep R s m s' := by
    intro s' hs ht hw
    exact ⟨[], .other s s' hs ht (by rw [hw]; exact fun _ _ _ h => h) (by rw [hw]; exact fun _ _ _ _ h => h)⟩
  have h' := h
  cases h
  case spawn k hcr hm hk =>
    have hst : (s.workers k).phase = .notStarted := by
      rw [(reach_started hr).2 k hk]
      simp [State.spawned, hm]
    exact key k _ _ h' rfl rfl (by simp [hst]) (by simp [hst])
  case listen => exact same _ h' rfl rfl
  case send i w q hcr hi hp hq => exact key i _ _ h' rfl rfl (by simp [hp]) (by simp [hp])
  case closeStream i hcr hi hp hq hcl hgo => exact key i _ _ h' rfl rfl (fun _ _ h => h) (fun _ _ _ h => h)
  case senderNil => exact same _ h' rfl rfl
  case read i d p hcr hi hp => exact ⟨_, .read s i d p hcr hi hp⟩
  case apply i d p o hcr hi hp => exact ⟨_, .apply s i d p o hcr hi hp⟩
  case handled i hcr hi hp hq hcl => exact key i _ _ h' rfl rfl (by simp [hp]) (by simp [hp])
  case deliver i hcr hi hp hcl hlen => exact key i _ _ h' rfl rfl (by simp [hp]) (by simp [hp])
  case deliverClosed => exact same _ h' rfl rfl
  case giveUp i hcr hi hp he => exact key i _ _ h' rfl rfl (by simp [hp]) (by simp [hp])
  case finish i r hcr hi hp => exact key i _ _ h' rfl rfl (by simp [hp]) (by simp [hp])
  case closeChan => exact same _ h' rfl rfl
  case take i rest hcr hm hch => exact ⟨_, .take s i rest hcr hm hch⟩
  case drained => exact same _ h' rfl rfl
  case wait => exact same _ h' rfl rfl

/-- The announcement of a workload. -/
def announce (R : Run) (i : Nat) (w : Nat × Nat) : Msg := .processing (R.overlays0 w.2).name (R.file i).path w.1

/-- What is true of worker `i` when it has announced the workloads `a`. -/
def Phase.Told (R : Run) (i : Nat) (w : Worker) (a : List (Nat × Nat)) : Phase → Prop
  | .notStarted | .receiving => R.work i = a ++ w.queue ∧ workloads R (R.file i).nodes a = .ok w.docs
  | .received d p => R.work i = a ++ (d, p) :: w.queue ∧ workloads R (R.file i).nodes a = .ok w.docs
  | .applying d p _ => ∃ b, a = b ++ [(d, p)] ∧ R.work i = b ++ (d, p) :: w.queue ∧ workloads R (R.file i).nodes b = .ok w.docs
  | .selecting | .returned none | .done none => a = R.work i
  | .returned (some e) | .done (some e) =>
    (e = .canceled ∧ a = R.work i ∧ ∃ docs, resultFor R i = .ok docs) ∨
    ∃ e' b x post docs, e = .overlay i e' ∧ R.work i = b ++ x :: post ∧ a = b ++ [x] ∧
      workloads R (R.file i).nodes b = .ok docs ∧ workload R docs x = .err e'

/-- The same, the log being given. -/
def Worker.Told (R : Run) (l : List (Nat × Msg)) (i : Nat) (w : Worker) : Prop :=
  ∃ a, about .notice l i = a.map (announce R i) ∧ w.phase.Told R i w a

theorem about_append (set : Level) (l m : List (Nat × Msg)) (i : Nat) : about set (l ++ m) i = about set l i ++ about set m i := by
  simp [about, shown]

theorem msgs_debug_check (n : Node) (q : DocumentQuery) : ∀ m ∈ checkQueryMsgs n q, m.level = .debug := by
  induction q with
  | nil => simp [checkQueryMsgs]
  | cons c cs ih =>
    intro m hm
    unfold checkQueryMsgs at hm
    rcases List.mem_append.1 hm with h | h
    · simp only [findMsgs, List.mem_map] at h
      obtain ⟨q, _, rfl⟩ := h; rfl
    · split at h
      · exact ih m h
      · simp at h

theorem msgs_debug_checks (n : Node) (qs : List DocumentQuery) : ∀ m ∈ checkQueriesMsgsFrom n qs, m.level = .debug := by
  induction qs with
  | nil => simp [checkQueriesMsgsFrom, Msg.level]
  | cons c cs ih =>
    intro m hm
    unfold checkQueriesMsgsFrom at hm
    rcases List.mem_append.1 hm with h | h
    · exact msgs_debug_check n c m h
    · split at h
      · simp only [List.mem_singleton] at h; subst h; rfl
      · exact ih m h

theorem msgs_debug_find (qs : List Query) : ∀ m ∈ findMsgs qs, m.level = .debug := by
  intro m h
  simp only [findMsgs, List.mem_map] at h
  obtain ⟨q, _, rfl⟩ := h; rfl

theorem msgs_debug_inject (E : Sed) (ip : List Query) (n : Node) : ∀ m ∈ injectMsgs E ip n, m.level = .debug := by
  intro m h
  unfold injectMsgs at h
  split at h
  · split at h
    · split at h
      · exact msgs_debug_find ip m h
      · simp at h
    · simp at h
  · simp at h

theorem msgs_debug_action (E : Sed) (o : Overlay) (ns : List Node) : ∀ root, ∀ m ∈ actionMsgs E o root ns, m.level = .debug := by
  induction ns with
  | nil => simp [actionMsgs]
  | cons n ns ih =>
    intro root m h
    unfold actionMsgs at h
    rcases List.mem_cons.1 h with rfl | h
    · rfl
    · split at h
      · exact ih _ m h
      · simp at h

/-- What `Apply` logs is for debugging. -/
theorem msgs_debug (E : Sed) (dflt : Str) (o : Overlay) (doc : Node) : ∀ m ∈ applyMsgs E dflt o doc, m.level = .debug := by
  intro m hm
  unfold applyMsgs at hm
  rw [List.cons_append] at hm
  rcases List.mem_cons.1 hm with rfl | hm
  · rfl
  rcases List.mem_append.1 hm with h | h
  · unfold checkQueriesMsgs at h
    split at h
    · simp only [List.mem_singleton] at h; subst h; rfl
    · exact msgs_debug_checks doc _ m h
  · split at h
    · rcases List.mem_append.1 h with h | h
      · exact msgs_debug_find _ m h
      · simp only at h
        split at h
        · rcases List.mem_cons.1 h with rfl | h
          · rfl
          · unfold onMissingMsgs at h
            simp only at h
            split at h
            · split at h
              · split at h
                · simp only [List.mem_singleton] at h; subst h; rfl
                · exact msgs_debug_inject E _ doc m h
              · exact msgs_debug_inject E _ doc m h
              · simp at h
            · simp only [List.mem_singleton] at h; subst h; rfl
        · exact msgs_debug_action E o _ _ m h
    · simp at h

theorem about_debug (l : List (Nat × Msg)) (i : Nat) (h : ∀ x ∈ l, x.2.level = .debug) : about .notice l i = [] := by
  unfold about shown
  rw [List.filter_eq_nil_iff]
  intro m hm
  obtain ⟨x, hx, rfl⟩ := List.mem_map.1 hm
  rw [h x (List.mem_filter.1 hx).1]
  decide

theorem takeMsgs_debug (R : Run) (s : State) (i : Nat) : ∀ m ∈ takeMsgs R s i, m.level = .debug := by
  intro m hm
  unfold takeMsgs at hm
  split at hm <;> simp at hm <;> subst hm <;> rfl

theorem names_kept {R : Run} {s : State} (h : Reach R s) (p : Nat) : (s.overlays p).name = (R.overlays0 p).name := by
  rcases reach_overlays h p with h | h <;> rw [h]
  rfl

theorem told_same {R : Run} {l l' : List (Nat × Msg)} {ws : Nat → Worker} (h : ∀ i, i < R.files.length → (ws i).Told R l i)
    (ha : ∀ i, about .notice l' i = about .notice l i) : ∀ i, i < R.files.length → (ws i).Told R l' i := by
  intro i hi
  obtain ⟨a, h1, h2⟩ := h i hi
  exact ⟨a, by rw [ha, h1], h2⟩

theorem about_snoc_debug (l : List (Nat × Msg)) (j : Nat) (ms : List Msg) (h : ∀ m ∈ ms, m.level = .debug) (i : Nat) :
    about .notice (l ++ ms.map (fun m => (j, m))) i = about .notice l i := by
  rw [about_append, about_debug (ms.map (fun m => (j, m))) i (by
    intro x hx
    obtain ⟨m, hm, rfl⟩ := List.mem_map.1 hx
    exact h m hm), List.append_nil]

theorem work_ok {R : Run} {i : Nat} {docs : List Node} (h : resultFor R i = .ok docs) : workloads R (R.file i).nodes (R.work i) = .ok docs := by
  unfold resultFor at h
  cases hw : workloads R (R.file i).nodes (R.work i) with
  | ok ds =>
    rw [hw, Res.bind_ok] at h
    split at h
    · cases h
    · cases h; rfl
  | err e => rw [hw] at h; cases h
  | panic => rw [hw] at h; cases h

theorem logged_told {R : Run} {s : State} {l : List (Nat × Msg)} (h : Logged R s l) :
    ∀ i, i < R.files.length → (s.workers i).Told R l i := by
  induction h with
  | start => intro i _; exact ⟨[], rfl, rfl, rfl⟩
  | @step s s' l m hl hs ih =>
    have hr := hl.reach
    cases hs
    case read i d p hcr hi hp =>
      intro j hj
      by_cases hji : j = i
      · subst hji
        obtain ⟨a, h1, h2⟩ := ih j hj
        rw [hp] at h2
        refine ⟨a ++ [(d, p)], ?_, ?_⟩
        · rw [about_append, h1, List.map_append]
          have : about .notice [(j, Msg.processing (s.overlays p).name (R.file j).path d)] j = [announce R j (d, p)] := by
            simp [about, shown, announce, names_kept hr, Msg.level, Level.shows, Level.rank]
          rw [this]; rfl
        · simp only [State.setWorker, upd_self]
          exact ⟨a, rfl, h2⟩
      · obtain ⟨a, h1, h2⟩ := ih j hj
        refine ⟨a, ?_, ?_⟩
        · rw [about_append, h1]
          have : about .notice [(i, Msg.processing (s.overlays p).name (R.file i).path d)] j = [] := by
            simp [about, shown, Ne.symm hji]
          rw [this, List.append_nil]
        · simp only [State.setWorker, upd_of_ne _ _ _ _ hji]
          exact h2
    case apply i d p o hcr hi hp =>
      refine told_same (l := l) ?_ (about_snoc_debug l i _ ?_)
      · have hinv := reach_workers hr i hi
        unfold Worker.Inv at hinv
        rw [hp] at hinv
        obtain ⟨a, h1, h2⟩ := ih i hi
        rw [hp] at h2
        obtain ⟨b, rfl, hb, hd'⟩ := h2
        cases applyStep_cases R s i (s.workers i) d p o with
        | ok w' hq hcl hp' hd hw hcr =>
          rw [hw]
          refine workers_upd (P := fun i w => Worker.Told R l i w) ih (fun _ => ⟨_, h1, ?_⟩)
          rw [hp']
          exact ⟨by rw [hb, hq]; simp, workloads_snoc hd' (hd hinv.2)⟩
        | err e hd hw hcr =>
          rw [hw]
          refine workers_upd (P := fun i w => Worker.Told R l i w) ih (fun _ => ⟨_, h1, ?_⟩)
          exact .inr ⟨e, b, (d, p), _, _, rfl, hb, rfl, hd', hd hinv.2⟩
        | panic hd hw hcr => rw [hw]; exact ih
      · intro m hm
        split at hm
        · exact msgs_debug _ _ _ _ m hm
        · simp at hm
    case take i rest hcr hm hch =>
      refine told_same (l := l) ?_ (about_snoc_debug l i _ (takeMsgs_debug R s i))
      rw [takeStep_workers]; exact ih
    case other hs ht h1 h2 =>
      refine told_same (l := l) ?_ (fun i => by rw [List.append_nil])
      have put : ∀ (i : Nat) (w : Worker), (∀ a, (s.workers i).phase.Told R i (s.workers i) a → w.phase.Told R i w a) →
          i < R.files.length → ∀ j, j < R.files.length → (upd s.workers i w j).Told R l j := by
        intro i w hw hi
        refine workers_upd (P := fun i w => Worker.Told R l i w) ih (fun _ => ?_)
        obtain ⟨a, h3, h4⟩ := ih i hi
        exact ⟨a, h3, hw a h4⟩
      cases hs <;> try exact ih
      case spawn k hc hm hk =>
        have hst : (s.workers k).phase = .notStarted := by
          rw [(reach_started hr).2 k hk]
          simp [State.spawned, hm]
        exact put k _ (by rw [hst]; exact fun a h => h) hk
      case send i w q hc hi hp hq =>
        exact put i _ (by rw [hp]; intro a h; simp only [Phase.Told, hq] at h ⊢; exact h) hi
      case closeStream i hc hi hp hq hcl hgo =>
        refine put i _ ?_ hi
        intro a h
        cases hph : (s.workers i).phase with
        | returned r => rw [hph] at h; cases r <;> exact h
        | done r => rw [hph] at h; cases r <;> exact h
        | _ => rw [hph] at h; exact h
      case read i d p hc hi hp =>
        have := h1 i d p hp
        simp [State.setWorker] at this
      case apply i d p o hc hi hp =>
        have h' := h2 i d p o hp
        cases applyStep_cases R s i (s.workers i) d p o with
        | ok w' hq hcl hp' hd hw hcr => rw [hw, upd_self, hp'] at h'; cases h'
        | err e hd hw hcr => rw [hw, upd_self] at h'; cases h'
        | panic hd hw hcr => rw [hw]; exact ih
      case handled i hc hi hp hq hcl =>
        exact put i _ (by rw [hp]; intro a h; simp only [Phase.Told, hq, List.append_nil] at h ⊢; exact h.1.symm) hi
      case deliver i hc hi hp hcl hlen => exact put i _ (by rw [hp]; exact fun a h => h) hi
      case giveUp i hc hi hp he =>
        have hinv := reach_workers hr i hi
        unfold Worker.Inv at hinv
        rw [hp] at hinv
        exact put i _ (by rw [hp]; exact fun a h => .inl ⟨rfl, h, _, hinv⟩) hi
      case finish i r hc hi hp =>
        exact put i _ (by rw [hp]; intro a h; cases r <;> exact h) hi
      case take i rest hc hm hch => rw [takeStep_workers]; exact ih

/-- When `Execute` returns the error of an overlay, the channel is closed. -/
theorem reach_failed {R : Run} {s : State} (h : Reach R s) (i : Nat) (e : Err) (hm : s.main = .returned (some (.overlay i e))) :
    s.chanClosed = true := by
  induction h with
  | start => simp [State.init] at hm
  | @step s0 s1 hr hs ih =>
    cases hs
    case spawn k hcr hm' hk => simp at hm
    case listen hcr hm' => simp at hm
    case send i w q hcr hi hp hq => exact ih hm
    case closeStream i hcr hi hp hq hcl hgo => exact ih hm
    case read i d p hcr hi hp => exact ih hm
    case apply i d p o hcr hi hp =>
      simp only [applyStep_main, applyStep_chanClosed] at hm ⊢
      exact ih hm
    case handled i hcr hi hp hq hcl => exact ih hm
    case deliver i hcr hi hp hcl hlen => exact ih hm
    case deliverClosed i hcr hi hp hcl => exact ih hm
    case senderNil i hcr hi hp hq hcl hgo => exact ih hm
    case giveUp i hcr hi hp he => exact ih hm
    case finish i r hcr hi hp => exact ih hm
    case closeChan hcr hm' hd hcl => rfl
    case take i c hcr hm' hch =>
      exfalso
      cases takeStep_cases R s0 i c with
      | skip _ h _ _ => simp [h, hm'] at hm
      | write _ _ _ h _ _ => simp [h, hm'] at hm
      | writeFails _ _ _ h _ _ => simp [h] at hm
      | err _ _ h _ _ => simp [h] at hm
      | panic _ h _ _ => simp [h, hm'] at hm
    case drained hcr hm' hch hcl => exact hcl
    case wait hcr hm' hd => exact (reach_waiting hr (.inl hm')).1

end Yot
