import Verif.Spec.Execute
import Verif.Props.Apply
import Mathlib.Data.List.Perm.Subperm
/-
Invariants of a run.
-/
namespace Yot
open Spec

@[simp] theorem upd_self {α : Type} (f : Nat → α) (i : Nat) (x : α) : upd f i x i = x := by simp [upd]
theorem upd_of_ne {α : Type} (f : Nat → α) (i j : Nat) (x : α) (h : j ≠ i) : upd f i x j = f j := by simp [upd, h]

/-! ### What the composite steps change -/

section applyStep
variable (R : Run) (s : State) (i : Nat) (w : Worker) (d p : Nat) (o : Overlay)
@[simp] theorem applyStep_chan : (applyStep R s i w d p o).chan = s.chan := by
  unfold applyStep; split <;> (try rfl); split <;> (try rfl); dsimp only; split <;> split <;> rfl
@[simp] theorem applyStep_chanClosed : (applyStep R s i w d p o).chanClosed = s.chanClosed := by
  unfold applyStep; split <;> (try rfl); split <;> (try rfl); dsimp only; split <;> split <;> rfl
@[simp] theorem applyStep_groupErr : (applyStep R s i w d p o).groupErr = s.groupErr := by
  unfold applyStep; split <;> (try rfl); split <;> (try rfl); dsimp only; split <;> split <;> rfl
@[simp] theorem applyStep_main : (applyStep R s i w d p o).main = s.main := by
  unfold applyStep; split <;> (try rfl); split <;> (try rfl); dsimp only; split <;> split <;> rfl
@[simp] theorem applyStep_taken : (applyStep R s i w d p o).taken = s.taken := by
  unfold applyStep; split <;> (try rfl); split <;> (try rfl); dsimp only; split <;> split <;> rfl
@[simp] theorem applyStep_log : (applyStep R s i w d p o).log = s.log := by
  unfold applyStep; split <;> (try rfl); split <;> (try rfl); dsimp only; split <;> split <;> rfl

theorem applyStep_overlays : (applyStep R s i w d p o).overlays = s.overlays ∨
    (applyStep R s i w d p o).overlays = upd s.overlays p ((s.overlays p).resolve R.dflt) := by
  unfold applyStep
  split
  · exact .inl rfl
  · split
    · exact .inl rfl
    dsimp only
    split <;> split <;> first | exact .inl rfl | exact .inr rfl

/-- The worker after `Apply`, or the crash. -/
inductive Applied (s' : State) : Prop
  | ok (w' : Worker) (hq : w'.queue = w.queue) (hc : w'.closed = w.closed) (hp : w'.phase = .receiving)
      (hd : (∀ doc, Yot.apply R.sed R.dflt o doc = Yot.apply R.sed R.dflt (R.overlays0 p) doc) →
        workload R w.docs (d, p) = .ok w'.docs)
      (hw : s'.workers = upd s.workers i w') (hcr : s'.crashed = s.crashed)
  | err (e : Err)
      (hd : (∀ doc, Yot.apply R.sed R.dflt o doc = Yot.apply R.sed R.dflt (R.overlays0 p) doc) →
        workload R w.docs (d, p) = .err e)
      (hw : s'.workers = upd s.workers i { w with phase := .returned (some (.overlay i e)) }) (hcr : s'.crashed = s.crashed)
  | panic
      (hd : (∀ doc, Yot.apply R.sed R.dflt o doc = Yot.apply R.sed R.dflt (R.overlays0 p) doc) →
        workload R w.docs (d, p) = .panic)
      (hw : s'.workers = s.workers) (hcr : s'.crashed = true)

theorem applyStep_cases : Applied R s i w d p o (applyStep R s i w d p o) := by
  unfold applyStep
  split
  · rename_i hn
    exact .ok { w with phase := .receiving } rfl rfl rfl (fun _ => by simp [workload, hn]) rfl rfl
  · rename_i x hx
    split
    · rename_i hnil
      exact .panic (fun _ => by simp [workload, hx, hnil]) rfl rfl
    rename_i hnil
    dsimp only
    split
    · rename_i d' ha
      refine .ok { w with phase := .receiving, docs := w.docs.set d d' } rfl rfl rfl ?_ ?_ ?_
      · intro h0
        simp only [workload, hx, hnil, applyJob]
        rw [← h0]
        rw [show Yot.apply R.sed R.dflt o x.label = .ok d' from ha]
        rfl
      · split <;> rfl
      · split <;> rfl
    · rename_i e ha
      refine .err e ?_ ?_ ?_
      · intro h0
        simp only [workload, hx, hnil, applyJob]
        rw [← h0]
        rw [show Yot.apply R.sed R.dflt o x.label = .err e from ha]
        rfl
      · split <;> rfl
      · split <;> rfl
    · rename_i ha
      refine .panic ?_ ?_ ?_
      · intro h0
        simp only [workload, hx, hnil, applyJob]
        rw [← h0]
        rw [show Yot.apply R.sed R.dflt o x.label = .panic from ha]
        rfl
      · split <;> rfl
      · rfl
end applyStep

section takeStep
variable (R : Run) (s : State) (i : Nat) (c : List Nat)
@[simp] theorem takeStep_workers : (takeStep R s i c).workers = s.workers := by
  unfold takeStep; dsimp only; split <;> (try rfl); split <;> rfl
@[simp] theorem takeStep_overlays : (takeStep R s i c).overlays = s.overlays := by
  unfold takeStep; dsimp only; split <;> (try rfl); split <;> rfl
@[simp] theorem takeStep_chan : (takeStep R s i c).chan = c := by
  unfold takeStep; dsimp only; split <;> (try rfl); split <;> rfl
@[simp] theorem takeStep_chanClosed : (takeStep R s i c).chanClosed = s.chanClosed := by
  unfold takeStep; dsimp only; split <;> (try rfl); split <;> rfl
@[simp] theorem takeStep_groupErr : (takeStep R s i c).groupErr = s.groupErr := by
  unfold takeStep; dsimp only; split <;> (try rfl); split <;> rfl
@[simp] theorem takeStep_taken : (takeStep R s i c).taken = s.taken ++ [i] := by
  unfold takeStep; dsimp only; split <;> (try rfl); split <;> rfl

/-- What happens to the rest. -/
inductive Took (s' : State) : Prop
  | skip (hr : rendering R.emit R.style (s.workers i).docs = .ok none)
      (hm : s'.main = s.main) (hl : s'.log = s.log) (hc : s'.crashed = s.crashed)
  | write (t : Str) (hr : rendering R.emit R.style (s.workers i).docs = .ok (some t))
      (hf : R.writeFails s.log { file := i, name := outputName R.outDir (R.file i), text := t } = false)
      (hm : s'.main = s.main) (hl : s'.log = s.log ++ [{ file := i, name := outputName R.outDir (R.file i), text := t }])
      (hc : s'.crashed = s.crashed)
  | writeFails (t : Str) (hr : rendering R.emit R.style (s.workers i).docs = .ok (some t))
      (hf : R.writeFails s.log { file := i, name := outputName R.outDir (R.file i), text := t } = true)
      (hm : s'.main = .returned (some (.write i)))
      (hl : s'.log = s.log ++ [{ file := i, name := outputName R.outDir (R.file i), text := t }])
      (hc : s'.crashed = s.crashed)
  | err (e : Err) (hr : rendering R.emit R.style (s.workers i).docs = .err e)
      (hm : s'.main = .returned (some (.render i e))) (hl : s'.log = s.log) (hc : s'.crashed = s.crashed)
  | panic (hr : rendering R.emit R.style (s.workers i).docs = .panic)
      (hm : s'.main = s.main) (hl : s'.log = s.log) (hc : s'.crashed = true)

theorem takeStep_cases : Took R s i (takeStep R s i c) := by
  unfold takeStep
  dsimp only
  split
  · rename_i h; exact .skip h rfl rfl rfl
  · rename_i t h
    split
    · rename_i hf; exact .writeFails t h hf rfl rfl rfl
    · rename_i hf; exact .write t h (by simpa using hf) rfl rfl rfl
  · rename_i e h; exact .err e h rfl rfl rfl
  · rename_i h; exact .panic h rfl rfl rfl
end takeStep

/-! ### The workers -/

/-- What is still to come of file `i`. -/
def restFor (R : Run) (i : Nat) (docs : List Node) (q : List (Nat × Nat)) : Res Err (List Node) :=
  workloads R docs q >>= fun docs => if R.stops i then .panic else .ok docs

/-- What is true of worker `i`. -/
def Phase.Inv (R : Run) (i : Nat) (w : Worker) : Phase → Prop
  | .notStarted | .receiving => resultFor R i = restFor R i w.docs w.queue
  | .received d p => resultFor R i = restFor R i w.docs ((d, p) :: w.queue)
  | .applying d p o => resultFor R i = restFor R i w.docs ((d, p) :: w.queue) ∧
    ∀ doc, Yot.apply R.sed R.dflt o doc = Yot.apply R.sed R.dflt (R.overlays0 p) doc
  | .selecting | .returned none | .done none => resultFor R i = .ok w.docs
  | .returned (some e) | .done (some e) =>
    e = .canceled ∨ ∃ e', e = .overlay i e' ∧ resultFor R i = .err e'

theorem apply_resolve (E : Sed) (dflt : Str) (o : Overlay) (doc : Node) :
    Yot.apply E dflt (o.resolve dflt) doc = Yot.apply E dflt o doc := C25_stable E dflt o 1 doc

/-- The shared overlays are only ever resolved. -/
theorem reach_overlays {R : Run} {s : State} (h : Reach R s) (p : Nat) :
    s.overlays p = R.overlays0 p ∨ s.overlays p = (R.overlays0 p).resolve R.dflt := by
  induction h with
  | start => exact .inl rfl
  | step _ hs ih =>
    cases hs <;> try exact ih
    case apply s _ i d q o hc hi hp =>
      rcases applyStep_overlays R s i (s.workers i) d q o with h | h
      · rw [h]; exact ih
      · rw [h]
        by_cases hq : p = q
        · subst hq
          rw [upd_self]
          right
          rcases ih with h | h
          · rw [h]
          · rw [h]
            have hr : ∀ m : OnMissing, (m.resolve R.dflt).resolve R.dflt = m.resolve R.dflt := by
              intro m
              unfold OnMissing.resolve
              split <;> simp_all
            unfold Overlay.resolve
            simp [hr]
        · rw [upd_of_ne _ _ _ _ hq]; exact ih
    case take s _ i c _ _ _ => rw [takeStep_overlays]; exact ih

theorem reach_apply {R : Run} {s : State} (h : Reach R s) (p : Nat) (doc : Node) :
    Yot.apply R.sed R.dflt (s.overlays p) doc = Yot.apply R.sed R.dflt (R.overlays0 p) doc := by
  rcases reach_overlays h p with h | h
  · rw [h]
  · rw [h, apply_resolve]

/-- What is true of worker `i`. -/
def Worker.Inv (R : Run) (i : Nat) (w : Worker) : Prop := w.phase.Inv R i w

/-- How many workers have been started. -/
def State.spawned (n : Nat) (s : State) : Nat :=
  match s.main with
  | .spawning k => k
  | _ => n

theorem started_upd {n i k : Nat} {ws : Nat → Worker} {w : Worker}
    (h : k ≤ n ∧ ∀ j, j < n → ((ws j).phase = .notStarted ↔ k ≤ j)) (h1 : (ws i).phase ≠ .notStarted) (h2 : w.phase ≠ .notStarted) :
    k ≤ n ∧ ∀ j, j < n → ((upd ws i w j).phase = .notStarted ↔ k ≤ j) := by
  refine ⟨h.1, ?_⟩
  intro j hj
  by_cases hji : j = i
  · subst hji
    rw [upd_self]
    have := h.2 j hj
    tauto
  · rw [upd_of_ne _ _ _ _ hji]; exact h.2 j hj

theorem reach_started {R : Run} {s : State} (h : Reach R s) :
    s.spawned R.files.length ≤ R.files.length ∧
    ∀ i, i < R.files.length → ((s.workers i).phase = .notStarted ↔ s.spawned R.files.length ≤ i) := by
  induction h with
  | start => simp [State.init, State.spawned]
  | @step s0 s1 hr hs ih =>
    cases hs
    case spawn k hc hm hk =>
      have h1 : s0.spawned R.files.length = k := by simp [State.spawned, hm]
      rw [h1] at ih
      simp only [State.spawned, State.setWorker]
      refine ⟨hk, ?_⟩
      intro j hj
      by_cases hjk : j = k
      · subst hjk
        rw [upd_self]
        simp
      · rw [upd_of_ne _ _ _ _ hjk, ih.2 j hj]
        omega
    case listen hc hm =>
      have h1 : s0.spawned R.files.length = R.files.length := by simp [State.spawned, hm]
      rw [h1] at ih
      exact ih
    case send i w q hc hi hp hq => exact started_upd ih (by rw [hp]; simp) (by simp)
    case closeStream i hc hi hp hq hcl hgo => exact started_upd ih (fun h => hp h) (fun h => hp h)
    case senderNil i hc hi hp hq hcl hgo => exact ih
    case read i d p hc hi hp => exact started_upd ih (by rw [hp]; simp) (by simp)
    case apply i d p o hc hi hp =>
      have : (applyStep R s0 i (s0.workers i) d p o).spawned R.files.length = s0.spawned R.files.length := by
        simp [State.spawned]
      rw [this]
      cases applyStep_cases R s0 i (s0.workers i) d p o with
      | ok w' hq hcl hp' hd hw hcr => rw [hw]; exact started_upd ih (by rw [hp]; simp) (by simp [hp'])
      | err e hd hw hcr => rw [hw]; exact started_upd ih (by rw [hp]; simp) (by simp)
      | panic hd hw hcr => rw [hw]; exact ih
    case handled i hc hi hp hq hcl => exact started_upd ih (by rw [hp]; simp) (by simp)
    case deliver i hc hi hp hcl hlen => exact started_upd ih (by rw [hp]; simp) (by simp)
    case deliverClosed => exact ih
    case giveUp i hc hi hp he => exact started_upd ih (by rw [hp]; simp) (by simp)
    case finish i r hc hi hp => exact started_upd ih (by rw [hp]; simp) (by simp)
    case closeChan => exact ih
    case take i c hc hm hch =>
      have : (takeStep R s0 i c).spawned R.files.length = s0.spawned R.files.length := by
        have h0 : s0.spawned R.files.length = R.files.length := by simp [State.spawned, hm]
        rw [h0]
        cases takeStep_cases R s0 i c with
        | skip _ h _ _ => simp [State.spawned, h, hm]
        | write _ _ _ h _ _ => simp [State.spawned, h, hm]
        | writeFails _ _ _ h _ _ => simp [State.spawned, h]
        | err _ _ h _ _ => simp [State.spawned, h]
        | panic _ h _ _ => simp [State.spawned, h, hm]
      rw [this, takeStep_workers]
      exact ih
    case drained hc hm hch hcl =>
      have h1 : s0.spawned R.files.length = R.files.length := by simp [State.spawned, hm]
      rw [h1] at ih
      exact ih
    case wait hc hm hd =>
      have h1 : s0.spawned R.files.length = R.files.length := by simp [State.spawned, hm]
      rw [h1] at ih
      exact ih

/-- A step that changes worker `i` only. -/
theorem workers_upd {R : Run} {ws : Nat → Worker} {P : Nat → Worker → Prop} {i : Nat} {w : Worker}
    (h : ∀ j, j < R.files.length → P j (ws j)) (hw : i < R.files.length → P i w) :
    ∀ j, j < R.files.length → P j (upd ws i w j) := by
  intro j hj
  by_cases hji : j = i
  · subst hji; rw [upd_self]; exact hw hj
  · rw [upd_of_ne _ _ _ _ hji]; exact h j hj

theorem handleJobs_cons (E : Sed) (dflt : Str) (docs : List Node) (j : Job) (js : List Job) :
    handleJobs E dflt docs (j :: js) = handleJob E dflt docs j >>= fun docs' => handleJobs E dflt docs' js := by
  simp [handleJobs, List.foldlM_cons]

theorem workloads_cons (R : Run) (docs : List Node) (w : Nat × Nat) (ws : List (Nat × Nat)) :
    workloads R docs (w :: ws) = workload R docs w >>= fun docs' => workloads R docs' ws := by
  simp [workloads, List.foldlM_cons]

theorem restFor_ok {R : Run} {i : Nat} {docs docs' : List Node} {w : Nat × Nat} {q : List (Nat × Nat)}
    (h : workload R docs w = .ok docs') : restFor R i docs (w :: q) = restFor R i docs' q := by
  unfold restFor
  rw [workloads_cons, h, Res.bind_ok]

theorem restFor_err {R : Run} {i : Nat} {docs : List Node} {e : Err} {w : Nat × Nat} {q : List (Nat × Nat)}
    (h : workload R docs w = .err e) : restFor R i docs (w :: q) = .err e := by
  unfold restFor
  rw [workloads_cons, h]
  rfl

theorem restFor_panic {R : Run} {i : Nat} {docs : List Node} {w : Nat × Nat} {q : List (Nat × Nat)}
    (h : workload R docs w = .panic) : restFor R i docs (w :: q) = .panic := by
  unfold restFor
  rw [workloads_cons, h]
  rfl

theorem restFor_nil {R : Run} {i : Nat} {docs : List Node} : restFor R i docs [] = if R.stops i then .panic else .ok docs := rfl

/-- The sender is past its last workload, and did not crash. -/
def Phase.past : Phase → Bool
  | .selecting => true
  | .returned none => true
  | .returned (some .canceled) => true
  | .done none => true
  | .done (some .canceled) => true
  | _ => false

/-- What is true of the sender of file `i`. -/
def Worker.Sender (R : Run) (i : Nat) (w : Worker) : Prop :=
  (w.closed = true → R.stops i = false ∧ w.queue = []) ∧ (w.phase.past = true → w.closed = true)

theorem reach_sender {R : Run} {s : State} (h : Reach R s) : ∀ i, i < R.files.length → (s.workers i).Sender R i := by
  induction h with
  | start =>
    intro i hi
    exact ⟨fun h => by simp [State.init] at h, fun h => by simp [State.init, Phase.past] at h⟩
  | step hr hs ih =>
    cases hs <;> try exact ih
    case spawn s k hc hm hk => exact workers_upd (P := Worker.Sender R) ih (fun _ => ⟨(ih k hk).1, by simp [Phase.past]⟩)
    case send s i w q hc hi hp hq =>
      refine workers_upd (P := Worker.Sender R) ih (fun _ => ⟨fun h => ?_, by simp [Phase.past]⟩)
      have := ((ih i hi).1 h).2
      rw [hq] at this; cases this
    case closeStream s i hc hi hp hq hcl hgo => exact workers_upd (P := Worker.Sender R) ih (fun _ => ⟨fun _ => ⟨hgo, hq⟩, fun _ => rfl⟩)
    case read s i d p hc hi hp => exact workers_upd (P := Worker.Sender R) ih (fun _ => ⟨(ih i hi).1, by simp [Phase.past]⟩)
    case apply s i d p o hc hi hp =>
      cases applyStep_cases R s i (s.workers i) d p o with
      | ok w' hq hcl hp' hd hw hcr =>
        rw [hw]
        exact workers_upd (P := Worker.Sender R) ih (fun _ => ⟨by rw [hq, hcl]; exact (ih i hi).1, by simp [hp', Phase.past]⟩)
      | err e hd hw hcr => rw [hw]; exact workers_upd (P := Worker.Sender R) ih (fun _ => ⟨(ih i hi).1, by simp [Phase.past]⟩)
      | panic hd hw hcr => rw [hw]; exact ih
    case handled s i hc hi hp hq hcl => exact workers_upd (P := Worker.Sender R) ih (fun _ => ⟨(ih i hi).1, fun _ => hcl⟩)
    case deliver s i hc hi hp hcl hlen =>
      exact workers_upd (P := Worker.Sender R) ih (fun _ => ⟨(ih i hi).1, fun _ => (ih i hi).2 (by rw [hp]; rfl)⟩)
    case giveUp s i hc hi hp he =>
      exact workers_upd (P := Worker.Sender R) ih (fun _ => ⟨(ih i hi).1, fun _ => (ih i hi).2 (by rw [hp]; rfl)⟩)
    case finish s i r hc hi hp =>
      refine workers_upd (P := Worker.Sender R) ih (fun _ => ⟨(ih i hi).1, fun h => (ih i hi).2 ?_⟩)
      rw [hp]
      cases r with
      | none => rfl
      | some e => cases e <;> first | rfl | (simp [Phase.past] at h)
    case take s i c _ _ _ => rw [takeStep_workers]; exact ih

theorem reach_workers {R : Run} {s : State} (h : Reach R s) :
    ∀ i, i < R.files.length → (s.workers i).Inv R i := by
  induction h with
  | start =>
    intro i hi
    rfl
  | step hr hs ih =>
    cases hs <;> try exact ih
    case spawn s k hc hm hk =>
      simp only [State.setWorker]
      apply workers_upd (P := Worker.Inv R) ih
      intro _
      have := ih k hk
      unfold Worker.Inv at this ⊢
      have hst : (s.workers k).phase = .notStarted := by
        rw [(reach_started hr).2 k hk]
        simp [State.spawned, hm]
      rw [hst] at this
      exact this
    case send s i w q hc hi hp hq =>
      simp only [State.setWorker]
      apply workers_upd (P := Worker.Inv R) ih
      intro _
      have := ih i hi
      unfold Worker.Inv at this ⊢
      rw [hp] at this
      simp only [Phase.Inv, hq] at this ⊢
      exact this
    case closeStream s i hc hi hp hq hcl hgo =>
      simp only [State.setWorker]
      apply workers_upd (P := Worker.Inv R) ih
      intro _
      have := ih i hi
      unfold Worker.Inv at this ⊢
      simp only
      cases hph : (s.workers i).phase with
      | returned r => rw [hph] at this; cases r <;> exact this
      | done r => rw [hph] at this; cases r <;> exact this
      | _ => rw [hph] at this; exact this
    case read s i d p hc hi hp =>
      simp only [State.setWorker]
      apply workers_upd (P := Worker.Inv R) ih
      intro _
      have := ih i hi
      unfold Worker.Inv at this ⊢
      rw [hp] at this
      exact ⟨this, reach_apply hr p⟩
    case apply s i d p o hc hi hp =>
      have hinv := ih i hi
      unfold Worker.Inv at hinv
      rw [hp] at hinv
      obtain ⟨h1, h2⟩ := hinv
      cases applyStep_cases R s i (s.workers i) d p o with
      | ok w' hq hcl hp' hd hw hcr =>
        rw [hw]
        apply workers_upd (P := Worker.Inv R) ih
        intro _
        unfold Worker.Inv
        rw [hp']
        rw [restFor_ok (hd h2)] at h1
        simp only [Phase.Inv]
        rw [h1, hq]
      | err e hd hw hcr =>
        rw [hw]
        apply workers_upd (P := Worker.Inv R) ih
        intro _
        rw [restFor_err (hd h2)] at h1
        exact .inr ⟨e, rfl, h1⟩
      | panic hd hw hcr => rw [hw]; exact ih
    case handled s i hc hi hp hq hcl =>
      simp only [State.setWorker]
      apply workers_upd (P := Worker.Inv R) ih
      intro _
      have := ih i hi
      unfold Worker.Inv at this ⊢
      rw [hp] at this
      simp only [Phase.Inv, hq] at this ⊢
      rw [restFor_nil, ((reach_sender hr i hi).1 hcl).1] at this
      exact this
    case deliver s i hc hi hp hcl hlen =>
      simp only [State.setWorker]
      apply workers_upd (P := Worker.Inv R) ih
      intro _
      have := ih i hi
      unfold Worker.Inv at this ⊢
      rw [hp] at this
      exact this
    case giveUp s i hc hi hp he =>
      simp only [State.setWorker]
      apply workers_upd (P := Worker.Inv R) ih
      intro _
      exact .inl rfl
    case finish s i r hc hi hp =>
      simp only [State.setWorker, finishStep]
      apply workers_upd (P := Worker.Inv R) ih
      intro _
      have := ih i hi
      unfold Worker.Inv at this ⊢
      rw [hp] at this
      cases r <;> exact this
    case take s i c _ _ _ => rw [takeStep_workers]; exact ih

/-- Which workloads have been handed over. -/
def Phase.Handed (R : Run) (i : Nat) (w : Worker) : Phase → Prop
  | .notStarted | .receiving => ∃ pre, R.work i = pre ++ w.queue ∧ workloads R (R.file i).nodes pre = .ok w.docs
  | .received d p | .applying d p _ =>
    ∃ pre, R.work i = pre ++ (d, p) :: w.queue ∧ workloads R (R.file i).nodes pre = .ok w.docs
  | _ => w.closed = true ∨ ∃ pre x docs, R.work i = pre ++ x :: w.queue ∧ workloads R (R.file i).nodes pre = .ok docs

def Worker.Handed (R : Run) (i : Nat) (w : Worker) : Prop := w.phase.Handed R i w

theorem workloads_snoc {R : Run} {docs docs' docs'' : List Node} {pre : List (Nat × Nat)} {w : Nat × Nat}
    (h : workloads R docs pre = .ok docs') (h' : workload R docs' w = .ok docs'') : workloads R docs (pre ++ [w]) = .ok docs'' := by
  unfold workloads at h ⊢
  rw [List.foldlM_append, h, Res.bind_ok, List.foldlM_cons, h', Res.bind_ok]
  rfl

theorem reach_handed_all {R : Run} {s : State} (h : Reach R s) : ∀ i, i < R.files.length → (s.workers i).Handed R i := by
  induction h with
  | start => intro i hi; exact ⟨[], rfl, rfl⟩
  | step hr hs ih =>
    cases hs <;> try exact ih
    case spawn s k hc hm hk =>
      refine workers_upd (P := Worker.Handed R) ih (fun _ => ?_)
      have := ih k hk
      unfold Worker.Handed at this ⊢
      have hst : (s.workers k).phase = .notStarted := by
        rw [(reach_started hr).2 k hk]
        simp [State.spawned, hm]
      rw [hst] at this
      exact this
    case send s i w q hc hi hp hq =>
      refine workers_upd (P := Worker.Handed R) ih (fun _ => ?_)
      have := ih i hi
      unfold Worker.Handed at this ⊢
      rw [hp] at this
      simp only [Phase.Handed, hq] at this ⊢
      exact this
    case closeStream s i hc hi hp hq hcl hgo =>
      refine workers_upd (P := Worker.Handed R) ih (fun _ => ?_)
      have := ih i hi
      unfold Worker.Handed at this ⊢
      simp only
      cases hph : (s.workers i).phase <;> rw [hph] at this <;> first | exact .inl rfl | exact this
    case read s i d p hc hi hp =>
      refine workers_upd (P := Worker.Handed R) ih (fun _ => ?_)
      have := ih i hi
      unfold Worker.Handed at this ⊢
      rw [hp] at this
      exact this
    case apply s i d p o hc hi hp =>
      have hinv := reach_workers hr i hi
      unfold Worker.Inv at hinv
      rw [hp] at hinv
      have hih := ih i hi
      unfold Worker.Handed at hih
      rw [hp] at hih
      obtain ⟨pre, h1, h2⟩ := hih
      cases applyStep_cases R s i (s.workers i) d p o with
      | ok w' hq hcl hp' hd hw hcr =>
        rw [hw]
        refine workers_upd (P := Worker.Handed R) ih (fun _ => ?_)
        unfold Worker.Handed
        rw [hp']
        exact ⟨pre ++ [(d, p)], by rw [h1, hq]; simp, workloads_snoc h2 (hd hinv.2)⟩
      | err e hd hw hcr =>
        rw [hw]
        exact workers_upd (P := Worker.Handed R) ih (fun _ => .inr ⟨pre, (d, p), _, h1, h2⟩)
      | panic hd hw hcr => rw [hw]; exact ih
    case handled s i hc hi hp hq hcl => exact workers_upd (P := Worker.Handed R) ih (fun _ => .inl hcl)
    case deliver s i hc hi hp hcl hlen =>
      refine workers_upd (P := Worker.Handed R) ih (fun _ => ?_)
      have := ih i hi
      unfold Worker.Handed at this ⊢
      rw [hp] at this
      exact this
    case giveUp s i hc hi hp he =>
      refine workers_upd (P := Worker.Handed R) ih (fun _ => ?_)
      have := ih i hi
      unfold Worker.Handed at this ⊢
      rw [hp] at this
      exact this
    case finish s i r hc hi hp =>
      refine workers_upd (P := Worker.Handed R) ih (fun _ => ?_)
      have := ih i hi
      unfold Worker.Handed at this ⊢
      rw [hp] at this
      exact this
    case take s i c _ _ _ => rw [takeStep_workers]; exact ih

/-- When the sender has nothing left and has not closed the stream, all workloads but perhaps the last
one have been applied. -/
theorem reach_handed {R : Run} {s : State} (h : Reach R s) (i : Nat) (hi : i < R.files.length)
    (hq : (s.workers i).queue = []) (hcl : (s.workers i).closed = false) :
    ∃ docs, workloads R (R.file i).nodes (R.work i).dropLast = .ok docs := by
  have hd : ∀ pre docs, workloads R (R.file i).nodes pre = .ok docs → ∃ docs, workloads R (R.file i).nodes pre.dropLast = .ok docs := by
    intro pre docs hp
    rcases List.eq_nil_or_concat pre with rfl | ⟨l, x, rfl⟩
    · exact ⟨_, rfl⟩
    · rw [List.concat_eq_append] at hp ⊢
      rw [List.dropLast_concat]
      unfold workloads at hp ⊢
      rw [List.foldlM_append] at hp
      cases hl : List.foldlM (workload R) (R.file i).nodes l with
      | ok ds => exact ⟨ds, rfl⟩
      | err e => rw [hl] at hp; cases hp
      | panic => rw [hl] at hp; cases hp
  have := reach_handed_all h i hi
  unfold Worker.Handed at this
  cases hph : (s.workers i).phase <;> rw [hph] at this <;> simp only [Phase.Handed, hq, hcl, Bool.false_eq_true, false_or, List.append_nil] at this
  all_goals first
    | (obtain ⟨pre, h1, h2⟩ := this; rw [h1]; exact hd _ _ h2)
    | (obtain ⟨pre, h1, h2⟩ := this; rw [h1, List.dropLast_concat]; exact ⟨_, h2⟩)
    | (obtain ⟨pre, x, docs, h1, h2⟩ := this; rw [h1, List.dropLast_concat]; exact ⟨_, h2⟩)

/-! ### The channel -/

theorem reach_closed {R : Run} {s : State} (h : Reach R s) (hc : s.chanClosed = true) :
    s.allDone R.files.length ∧ ∀ k, s.main ≠ .spawning k := by
  induction h with
  | start => simp [State.init] at hc
  | @step s0 s1 hr hs ih =>
    have key : ∀ {i : Nat} {w : Worker}, s0.chanClosed = true → i < R.files.length → (∀ r, (s0.workers i).phase ≠ .done r) → False := by
      intro i w h hi hd
      obtain ⟨r, hr⟩ := (ih h).1 i hi
      exact hd r hr
    cases hs
    case spawn k hcr hm hk => exact absurd hm ((ih hc).2 k)
    case listen hcr hm => exact absurd hm ((ih hc).2 _)
    case send i w q hcr hi hp hq => exact (key (w := s0.workers i) hc hi (by simp [hp])).elim
    case closeStream i hcr hi hp hq hcl hgo =>
      refine ⟨?_, (ih hc).2⟩
      intro j hj
      simp only [State.setWorker]
      by_cases hji : j = i
      · subst hji; rw [upd_self]; exact (ih hc).1 j hj
      · rw [upd_of_ne _ _ _ _ hji]; exact (ih hc).1 j hj
    case read i d p hcr hi hp => exact (key (w := s0.workers i) hc hi (by simp [hp])).elim
    case apply i d p o hcr hi hp =>
      rw [applyStep_chanClosed] at hc
      exact (key (w := s0.workers i) hc hi (by simp [hp])).elim
    case handled i hcr hi hp hq hcl => exact (key (w := s0.workers i) hc hi (by simp [hp])).elim
    case deliver i hcr hi hp hcl hlen => exact (key (w := s0.workers i) hc hi (by simp [hp])).elim
    case deliverClosed i hcr hi hp hcl => exact (key (w := s0.workers i) hc hi (by simp [hp])).elim
    case senderNil i hcr hi hp hq hcl hgo => exact ih hc
    case giveUp i hcr hi hp he => exact (key (w := s0.workers i) hc hi (by simp [hp])).elim
    case finish i r hcr hi hp => exact (key (w := s0.workers i) hc hi (by simp [hp])).elim
    case closeChan hcr hm hd hcl => exact ⟨hd, fun k h => hm k h⟩
    case take i c hcr hm hch =>
      rw [takeStep_chanClosed] at hc
      refine ⟨?_, ?_⟩
      · intro j hj; rw [takeStep_workers]; exact (ih hc).1 j hj
      · intro k
        cases takeStep_cases R s0 i c with
        | skip _ h _ _ => simp [h, hm]
        | write _ _ _ h _ _ => simp [h, hm]
        | writeFails _ _ _ h _ _ => simp [h]
        | err _ _ h _ _ => simp [h]
        | panic _ h _ _ => simp [h, hm]
    case drained hcr hm hch hcl => exact ⟨(ih hc).1, by simp⟩
    case wait hcr hm hd => exact ⟨(ih hc).1, by simp⟩

theorem finishStep_main (s : State) (i : Nat) (w : Worker) (r : Option RunErr) : (finishStep s i w r).main = s.main := rfl

/-- When `Execute` waits or has succeeded, the channel is closed and empty. -/
theorem reach_waiting {R : Run} {s : State} (h : Reach R s) (hm : s.main = .waiting ∨ s.main = .returned none) :
    s.chanClosed = true ∧ s.chan = [] ∧ (s.main = .returned none → s.groupErr = none) := by
  induction h with
  | start => simp [State.init] at hm
  | @step s0 s1 hr hs ih =>
    have key : ∀ {i : Nat} {w : Worker}, s0.chanClosed = true → i < R.files.length → (∀ r, (s0.workers i).phase ≠ .done r) → False := by
      intro i w h hi hd
      obtain ⟨r, hr⟩ := (reach_closed hr h).1 i hi
      exact hd r hr
    cases hs
    case spawn k hcr hm' hk => simp at hm
    case listen hcr hm' => simp at hm
    case send i w q hcr hi hp hq => exact ih hm
    case closeStream i hcr hi hp hq hcl hgo => exact ih hm
    case read i d p hcr hi hp => exact ih hm
    case apply i d p o hcr hi hp =>
      simp only [applyStep_main, applyStep_chanClosed, applyStep_chan, applyStep_groupErr] at hm ⊢
      exact ih hm
    case handled i hcr hi hp hq hcl => exact ih hm
    case deliver i hcr hi hp hcl hlen => rw [(ih hm).1] at hcl; cases hcl
    case deliverClosed i hcr hi hp hcl => exact ih hm
    case senderNil i hcr hi hp hq hcl hgo => exact ih hm
    case giveUp i hcr hi hp he => exact ih hm
    case finish i r hcr hi hp =>
      have hm : s0.main = .waiting ∨ s0.main = .returned none := hm
      exact (key (w := s0.workers i) (ih hm).1 hi (by simp [hp])).elim
    case closeChan hcr hm' hd hcl => exact ⟨rfl, (ih hm).2⟩
    case take i c hcr hm' hch =>
      exfalso
      cases takeStep_cases R s0 i c with
      | skip _ h _ _ => simp [h, hm'] at hm
      | write _ _ _ h _ _ => simp [h, hm'] at hm
      | writeFails _ _ _ h _ _ => simp [h] at hm
      | err _ _ h _ _ => simp [h] at hm
      | panic _ h _ _ => simp [h, hm'] at hm
    case drained hcr hm' hch hcl => exact ⟨hcl, hch, by simp⟩
    case wait hcr hm' hd =>
      have := ih (.inl hm')
      refine ⟨this.1, this.2.1, ?_⟩
      intro h
      simpa using h

/-- Delivered to the channel. -/
def Phase.sent : Phase → Bool
  | .returned none => true
  | .done none => true
  | _ => false

theorem sent_upd {n i : Nat} {ws : Nat → Worker} {w : Worker} {l : List Nat}
    (h : ∀ j, j ∈ l ↔ j < n ∧ (ws j).phase.sent = true) (hw : w.phase.sent = (ws i).phase.sent) :
    ∀ j, j ∈ l ↔ j < n ∧ (upd ws i w j).phase.sent = true := by
  intro j
  rw [h j]
  by_cases hji : j = i
  · subst hji; rw [upd_self, hw]
  · rw [upd_of_ne _ _ _ _ hji]

theorem reach_sent {R : Run} {s : State} (h : Reach R s) :
    (s.taken ++ s.chan).Nodup ∧ ∀ i, i ∈ s.taken ++ s.chan ↔ i < R.files.length ∧ (s.workers i).phase.sent = true := by
  induction h with
  | start => simp [State.init, Phase.sent]
  | @step s0 s1 hr hs ih =>
    cases hs
    case spawn k hcr hm hk =>
      refine ⟨ih.1, sent_upd ih.2 ?_⟩
      have hst : (s0.workers k).phase = .notStarted := by
        rw [(reach_started hr).2 k hk]
        simp [State.spawned, hm]
      rw [hst]; rfl
    case listen hcr hm => exact ih
    case send i w q hcr hi hp hq => exact ⟨ih.1, sent_upd ih.2 (by rw [hp]; rfl)⟩
    case closeStream i hcr hi hp hq hcl hgo => exact ⟨ih.1, sent_upd ih.2 rfl⟩
    case read i d p hcr hi hp => exact ⟨ih.1, sent_upd ih.2 (by rw [hp]; rfl)⟩
    case apply i d p o hcr hi hp =>
      simp only [applyStep_taken, applyStep_chan]
      refine ⟨ih.1, ?_⟩
      cases applyStep_cases R s0 i (s0.workers i) d p o with
      | ok w' hq hcl hp' hd hw hcr => rw [hw]; exact sent_upd ih.2 (by rw [hp, hp']; rfl)
      | err e hd hw hcr => rw [hw]; exact sent_upd ih.2 (by rw [hp]; rfl)
      | panic hd hw hcr => rw [hw]; exact ih.2
    case handled i hcr hi hp hq hcl => exact ⟨ih.1, sent_upd ih.2 (by rw [hp]; rfl)⟩
    case deliver i hcr hi hp hcl hlen =>
      have hni : i ∉ s0.taken ++ s0.chan := by
        rw [ih.2 i, hp]; simp [Phase.sent]
      simp only [State.setWorker, ← List.append_assoc]
      refine ⟨?_, ?_⟩
      · rw [List.nodup_append]
        refine ⟨ih.1, by simp, ?_⟩
        intro a ha b hb
        simp only [List.mem_singleton] at hb
        subst hb
        rintro rfl
        exact hni ha
      · intro j
        rw [List.mem_append, ih.2 j]
        by_cases hji : j = i
        · subst hji; simp [hi, Phase.sent]
        · rw [upd_of_ne _ _ _ _ hji]; simp [hji]
    case deliverClosed i hcr hi hp hcl => exact ih
    case senderNil i hcr hi hp hq hcl hgo => exact ih
    case giveUp i hcr hi hp he => exact ⟨ih.1, sent_upd ih.2 (by rw [hp]; rfl)⟩
    case finish i r hcr hi hp => exact ⟨ih.1, sent_upd ih.2 (by rw [hp]; cases r <;> rfl)⟩
    case closeChan hcr hm' hd hcl => exact ih
    case take i c hcr hm hch =>
      simp only [takeStep_taken, takeStep_chan, takeStep_workers, List.append_assoc, List.singleton_append]
      rw [hch] at ih
      exact ih
    case drained hcr hm hch hcl => exact ih
    case wait hcr hm hd => exact ih

/-- The channel never fills up: a worker that has not delivered finds room. -/
theorem reach_room {R : Run} {s : State} (h : Reach R s) (i : Nat) (hi : i < R.files.length)
    (hp : (s.workers i).phase = .selecting) : s.chan.length < R.files.length := by
  obtain ⟨h1, h2⟩ := reach_sent h
  have hni : i ∉ s.taken ++ s.chan := by rw [h2 i, hp]; simp [Phase.sent]
  have hnd : (i :: s.chan).Nodup := by
    rw [List.nodup_cons]
    exact ⟨fun hc => hni (List.mem_append_right _ hc), (List.nodup_append.1 h1).2.1⟩
  have hsub : (i :: s.chan) ⊆ List.range R.files.length := by
    intro x hx
    rw [List.mem_range]
    rcases List.mem_cons.1 hx with rfl | hx
    · exact hi
    · exact ((h2 x).1 (List.mem_append_right _ hx)).1
  have := (hnd.subperm hsub).length_le
  rw [List.length_cons, List.length_range] at this
  omega

/-! ### Errors -/

/-- The group's error is the error of some file's overlays. -/
theorem reach_groupErr {R : Run} {s : State} (h : Reach R s) :
    (∀ e, s.groupErr = some e → ∃ i e', i < R.files.length ∧ e = .overlay i e' ∧ resultFor R i = .err e') ∧
    (∀ i e, i < R.files.length → (s.workers i).phase = .done (some e) → s.groupErr.isSome = true) ∧
    (∀ i, i < R.files.length → (s.workers i).phase = .returned (some .canceled) → s.groupErr.isSome = true) := by
  induction h with
  | start => simp [State.init]
  | @step s0 s1 hr hs ih =>
    obtain ⟨ih1, ih2, ih3⟩ := ih
    have key : ∀ (i : Nat) (w : Worker), (∀ e, w.phase = .done (some e) → (s0.workers i).phase = .done (some e)) →
        (w.phase = .returned (some .canceled) → (s0.workers i).phase = .returned (some .canceled)) →
        (∀ j e, j < R.files.length → (upd s0.workers i w j).phase = .done (some e) → s0.groupErr.isSome = true) ∧
        (∀ j, j < R.files.length → (upd s0.workers i w j).phase = .returned (some .canceled) → s0.groupErr.isSome = true) := by
      intro i w h1 h2
      constructor
      · intro j e hj
        by_cases hji : j = i
        · subst hji; rw [upd_self]; exact fun h => ih2 j e hj (h1 e h)
        · rw [upd_of_ne _ _ _ _ hji]; exact ih2 j e hj
      · intro j hj
        by_cases hji : j = i
        · subst hji; rw [upd_self]; exact fun h => ih3 j hj (h2 h)
        · rw [upd_of_ne _ _ _ _ hji]; exact ih3 j hj
    cases hs
    case spawn k hcr hm hk => exact ⟨ih1, key _ _ (by simp) (by simp)⟩
    case listen hcr hm => exact ⟨ih1, ih2, ih3⟩
    case send i w q hcr hi hp hq => exact ⟨ih1, key _ _ (by simp) (by simp)⟩
    case closeStream i hcr hi hp hq hcl hgo => exact ⟨ih1, key _ _ (fun _ h => h) (fun h => h)⟩
    case read i d p hcr hi hp => exact ⟨ih1, key _ _ (by simp) (by simp)⟩
    case apply i d p o hcr hi hp =>
      simp only [applyStep_groupErr]
      refine ⟨ih1, ?_⟩
      cases applyStep_cases R s0 i (s0.workers i) d p o with
      | ok w' hq hcl hp' hd hw hcr => rw [hw]; exact key _ _ (by simp [hp']) (by simp [hp'])
      | err e hd hw hcr => rw [hw]; exact key _ _ (by simp) (by simp)
      | panic hd hw hcr => rw [hw]; exact ⟨ih2, ih3⟩
    case handled i hcr hi hp hq hcl => exact ⟨ih1, key _ _ (by simp) (by simp)⟩
    case deliver i hcr hi hp hcl hlen => exact ⟨ih1, key _ _ (by simp) (by simp)⟩
    case deliverClosed i hcr hi hp hcl => exact ⟨ih1, ih2, ih3⟩
    case senderNil i hcr hi hp hq hcl hgo => exact ⟨ih1, ih2, ih3⟩
    case giveUp i hcr hi hp he =>
      exact ⟨ih1, fun _ _ _ _ => he, fun _ _ _ => he⟩
    case finish i r hcr hi hp =>
      cases r with
      | none =>
        have : (finishStep s0 i (s0.workers i) none).groupErr = s0.groupErr := by
          simp only [finishStep]
          cases s0.groupErr <;> rfl
        rw [this]
        exact ⟨ih1, key _ _ (by simp) (by simp)⟩
      | some e =>
        have hsome : (finishStep s0 i (s0.workers i) (some e)).groupErr.isSome = true := by
          simp only [finishStep]
          cases s0.groupErr <;> rfl
        refine ⟨?_, fun _ _ _ _ => hsome, fun _ _ _ => hsome⟩
        intro e0 he0
        cases hg : s0.groupErr with
        | some e1 =>
          simp only [finishStep, hg] at he0
          apply ih1
          rw [hg]
          exact he0
        | none =>
          simp only [finishStep, hg] at he0
          have he0 : e = e0 := by simpa using he0
          subst he0
          have hw := reach_workers hr i hi
          unfold Worker.Inv at hw
          rw [hp] at hw
          rcases hw with rfl | ⟨e', rfl, he'⟩
          · have := ih3 i hi hp
            rw [hg] at this
            cases this
          · exact ⟨i, e', hi, rfl, he'⟩
    case closeChan hcr hm' hd hcl => exact ⟨ih1, ih2, ih3⟩
    case take i c hcr hm hch =>
      simp only [takeStep_groupErr, takeStep_workers]
      exact ⟨ih1, ih2, ih3⟩
    case drained hcr hm hch hcl => exact ⟨ih1, ih2, ih3⟩
    case wait hcr hm hd => exact ⟨ih1, ih2, ih3⟩

/-! ### The outputs -/

/-- A file that was delivered has the documents its overlays give. -/
theorem reach_docs {R : Run} {s : State} (h : Reach R s) (i : Nat) (hi : i ∈ s.taken ++ s.chan) :
    i < R.files.length ∧ resultFor R i = .ok (s.workers i).docs := by
  obtain ⟨h1, h2⟩ := (reach_sent h).2 i |>.1 hi
  refine ⟨h1, ?_⟩
  have := reach_workers h i h1
  unfold Worker.Inv at this
  generalize s.workers i = w at *
  obtain ⟨ph, q, cl, docs⟩ := w
  cases ph with
  | returned r => cases r with
    | none => exact this
    | some e => simp [Phase.sent] at h2
  | done r => cases r with
    | none => exact this
    | some e => simp [Phase.sent] at h2
  | _ => simp [Phase.sent] at h2

theorem outputFor_ok {R : Run} {i : Nat} {docs : List Node} (h : resultFor R i = .ok docs) :
    outputFor R i = (match rendering R.emit R.style docs with
      | .ok (some t) => some { file := i, name := outputName R.outDir (R.file i), text := t }
      | _ => none) := by
  unfold outputFor; rw [h]; rfl

/-- The outputs so far are those of the files taken so far. -/
theorem reach_log {R : Run} {s : State} (h : Reach R s) :
    s.log = s.taken.filterMap (outputFor R) := by
  induction h with
  | start => rfl
  | @step s0 s1 hr hs ih =>
    cases hs <;> try exact ih
    case apply i d p o hcr hi hp => simp only [applyStep_log, applyStep_taken]; exact ih
    case take i c hcr hm hch =>
      have hd := (reach_docs hr i (by rw [hch]; simp)).2
      have ho := outputFor_ok hd
      simp only [takeStep_taken, List.filterMap_append, List.filterMap_cons, List.filterMap_nil, ho]
      cases takeStep_cases R s0 i c with
      | skip h _ hl _ => rw [hl, h]; simpa using ih
      | write t h _ _ hl _ => rw [hl, h, ih]
      | writeFails t h _ _ hl _ => rw [hl, h, ih]
      | err e h _ hl _ => rw [hl, h]; simpa using ih
      | panic h _ hl _ => rw [hl, h]; simpa using ih

/-- As long as `Execute` has not returned an error, all files taken have been
rendered and written. -/
theorem reach_good {R : Run} {s : State} (h : Reach R s) (hc : s.crashed = false)
    (hm : ∀ e, s.main ≠ .returned (some e)) : ∀ i ∈ s.taken, Processes R i := by
  induction h with
  | start => simp [State.init]
  | @step s0 s1 hr hs ih =>
    cases hs
    case spawn k hcr hm' hk => exact ih hcr (by simp [hm'])
    case listen hcr hm' => exact ih hcr (by simp [hm'])
    case send i w q hcr hi hp hq => exact ih hcr hm
    case closeStream i hcr hi hp hq hcl hgo => exact ih hcr hm
    case read i d p hcr hi hp => exact ih hcr hm
    case apply i d p o hcr hi hp =>
      simp only [applyStep_main, applyStep_taken] at hm ⊢
      exact ih hcr hm
    case handled i hcr hi hp hq hcl => exact ih hcr hm
    case deliver i hcr hi hp hcl hlen => exact ih hcr hm
    case deliverClosed i hcr hi hp hcl => exact ih hcr hm
    case senderNil i hcr hi hp hq hcl hgo => exact ih hcr hm
    case giveUp i hcr hi hp he => exact ih hcr hm
    case finish i r hcr hi hp => exact ih hcr hm
    case closeChan hcr hm' hd hcl => exact ih hcr hm
    case take i c hcr hm' hch =>
      have hd := (reach_docs hr i (by rw [hch]; simp)).2
      have ih := ih hcr (by simp [hm'])
      rw [takeStep_taken]
      intro j hj
      rcases List.mem_append.1 hj with hj | hj
      · exact ih j hj
      · simp only [List.mem_singleton] at hj
        subst hj
        cases takeStep_cases R s0 j c with
        | skip h _ hl _ => exact ⟨_, _, hd, h⟩
        | write t h _ _ hl _ => exact ⟨_, _, hd, h⟩
        | writeFails t h _ h' _ _ => exact absurd h' (hm _)
        | err e h h' _ _ => exact absurd h' (hm _)
        | panic h _ _ h' => rw [h'] at hc; cases hc
    case drained hcr hm' hch hcl => exact ih hcr (by simp [hm'])
    case wait hcr hm' hd => exact ih hcr (by simp [hm'])

/-- A crash is a crash of processing some file; in particular nothing is ever sent
on the closed channel. -/
theorem reach_crashed {R : Run} {s : State} (h : Reach R s) (hc : s.crashed = true) :
    ∃ i, i < R.files.length ∧ Crashes R i := by
  induction h with
  | start => simp [State.init] at hc
  | @step s0 s1 hr hs ih =>
    cases hs
    case apply i d p o hcr hi hp =>
      have hinv := reach_workers hr i hi
      unfold Worker.Inv at hinv
      rw [hp] at hinv
      obtain ⟨h1, h2⟩ := hinv
      cases applyStep_cases R s0 i (s0.workers i) d p o with
      | ok w' hq hcl hp' hd hw hcr' => rw [hcr', hcr] at hc; cases hc
      | err e hd hw hcr' => rw [hcr', hcr] at hc; cases hc
      | panic hd hw hcr' =>
        rw [restFor_panic (hd h2)] at h1
        exact ⟨i, hi, .inl h1⟩
    case deliverClosed i hcr hi hp hcl =>
      obtain ⟨r, hr⟩ := (reach_closed hr hcl).1 i hi
      rw [hp] at hr; cases hr
    case senderNil i hcr hi hp hq hcl hgo =>
      refine ⟨i, hi, .inr (.inr ⟨hgo, ?_⟩)⟩
      exact reach_handed hr i hi hq hcl
    case take i c hcr hm' hch =>
      obtain ⟨hi, hd⟩ := reach_docs hr i (by rw [hch]; simp)
      cases takeStep_cases R s0 i c with
      | skip h _ hl h' => rw [h', hcr] at hc; cases hc
      | write t h _ _ hl h' => rw [h', hcr] at hc; cases hc
      | writeFails t h _ _ _ h' => rw [h', hcr] at hc; cases hc
      | err e h _ _ h' => rw [h', hcr] at hc; cases hc
      | panic h _ _ h' => exact ⟨i, hi, .inr (.inl ⟨_, hd, h⟩)⟩
    all_goals exact ih hc

/-- A run that returned success has not crashed. -/
theorem reach_success {R : Run} {s : State} (h : Reach R s) (hm : s.main = .returned none) : s.crashed = false := by
  cases h with
  | start => rfl
  | @step s0 s1 hr hs =>
    cases hs <;> try assumption
    case apply i d p o hcr hi hp =>
      exfalso
      rw [applyStep_main] at hm
      obtain ⟨r, hd⟩ := (reach_closed hr (reach_waiting hr (.inr hm)).1).1 i hi
      rw [hp] at hd; cases hd
    case deliverClosed i hcr hi hp hcl =>
      exfalso
      obtain ⟨r, hd⟩ := (reach_closed hr hcl).1 i hi
      rw [hp] at hd; cases hd
    case senderNil i hcr hi hp hq hcl hgo =>
      exfalso
      obtain ⟨r, hd⟩ := (reach_closed hr (reach_waiting hr (.inr hm)).1).1 i hi
      have hg := (reach_waiting hr (.inr hm)).2.2 hm
      cases r with
      | none =>
        have := (reach_sender hr i hi).2 (by rw [hd]; rfl)
        rw [hcl] at this; cases this
      | some e =>
        have := (reach_groupErr hr).2.1 i e hi hd
        rw [hg] at this; cases this
    case take i c hcr hm' hch =>
      cases takeStep_cases R s0 i c with
      | skip _ h _ _ => rw [h, hm'] at hm; cases hm
      | write _ _ _ h _ _ => rw [h, hm'] at hm; cases hm
      | writeFails _ _ _ h _ _ => rw [h] at hm; cases hm
      | err _ _ h _ _ => rw [h] at hm; cases hm
      | panic _ h _ _ => rw [h, hm'] at hm; cases hm

/-! ### What `Execute` returns -/

/-- An error returned by `Execute` has a cause. -/
theorem reach_returned {R : Run} {s : State} (h : Reach R s) (e : RunErr) (hm : s.main = .returned (some e)) :
    (∃ i e', i < R.files.length ∧ e = .overlay i e' ∧ resultFor R i = .err e') ∨
    (∃ i e' docs, i < R.files.length ∧ e = .render i e' ∧ resultFor R i = .ok docs ∧
      rendering R.emit R.style docs = .err e') ∨
    (∃ i o pre, i < R.files.length ∧ e = .write i ∧ outputFor R i = some o ∧ s.log = pre ++ [o] ∧ R.writeFails pre o = true) := by
  induction h with
  | start => simp [State.init] at hm
  | @step s0 s1 hr hs ih =>
    cases hs
    case spawn k hcr hm' hk => simp at hm
    case listen hcr hm' => simp at hm
    case send i w q hcr hi hp hq => exact ih hm
    case closeStream i hcr hi hp hq hcl hgo => exact ih hm
    case read i d p hcr hi hp => exact ih hm
    case apply i d p o hcr hi hp =>
      simp only [applyStep_main, applyStep_log] at hm ⊢
      exact ih hm
    case handled i hcr hi hp hq hcl => exact ih hm
    case deliver i hcr hi hp hcl hlen => exact ih hm
    case deliverClosed i hcr hi hp hcl => exact ih hm
    case senderNil i hcr hi hp hq hcl hgo => exact ih hm
    case giveUp i hcr hi hp he => exact ih hm
    case finish i r hcr hi hp => exact ih hm
    case closeChan hcr hm' hd hcl => exact ih hm
    case take i c hcr hm' hch =>
      obtain ⟨hi, hd⟩ := reach_docs hr i (by rw [hch]; simp)
      have ho := outputFor_ok hd
      cases takeStep_cases R s0 i c with
      | skip h h' hl _ => rw [h', hm'] at hm; cases hm
      | write t h _ h' hl _ => rw [h', hm'] at hm; cases hm
      | writeFails t h hf h' hl _ =>
        rw [h'] at hm
        simp only [Main.returned.injEq, Option.some.injEq] at hm
        subst hm
        rw [h] at ho
        exact .inr (.inr ⟨i, _, s0.log, hi, rfl, ho, hl, hf⟩)
      | err e' h h' _ _ =>
        rw [h'] at hm
        simp only [Main.returned.injEq, Option.some.injEq] at hm
        subst hm
        exact .inr (.inl ⟨i, e', _, hi, rfl, hd, h⟩)
      | panic h h' _ _ => rw [h', hm'] at hm; cases hm
    case drained hcr hm' hch hcl => simp at hm
    case wait hcr hm' hd =>
      simp only [Main.returned.injEq] at hm
      exact .inl ((reach_groupErr hr).1 e hm)

/-! ### Termination and progress -/

/-- How many steps a phase is away from the end, at most. -/
def Phase.weight : Phase → Nat
  | .notStarted => 7
  | .received _ _ => 6
  | .applying _ _ _ => 5
  | .receiving => 4
  | .selecting => 3
  | .returned _ => 1
  | .done _ => 0

def openWeight : Bool → Nat
  | true => 0
  | false => 1

def Worker.weight (w : Worker) : Nat := w.phase.weight + 4 * w.queue.length + openWeight w.closed

def workersWeight (ws : Nat → Worker) : Nat → Nat
  | 0 => 0
  | n + 1 => workersWeight ws n + (ws n).weight

def Main.weight (n : Nat) : Main → Nat
  | .spawning k => 3 + 5 * (n - k)
  | .receiving => 2
  | .waiting => 1
  | .returned _ => 0

def State.weight (n : Nat) (s : State) : Nat :=
  workersWeight s.workers n + s.chan.length + openWeight s.chanClosed + s.main.weight n + openWeight s.crashed

theorem workersWeight_upd_ge (ws : Nat → Worker) (i : Nat) (w : Worker) : ∀ n, n ≤ i → workersWeight (upd ws i w) n = workersWeight ws n
  | 0, _ => rfl
  | n + 1, h => by
    rw [workersWeight, workersWeight, workersWeight_upd_ge ws i w n (by omega), upd_of_ne _ _ _ _ (by omega)]

theorem workersWeight_upd (ws : Nat → Worker) (i : Nat) (w : Worker) : ∀ n, i < n →
    workersWeight (upd ws i w) n + (ws i).weight = workersWeight ws n + w.weight
  | 0, h => by omega
  | n + 1, h => by
    rw [workersWeight, workersWeight]
    by_cases hin : i = n
    · subst hin
      rw [workersWeight_upd_ge ws i w i (by omega), upd_self]
      omega
    · rw [upd_of_ne _ _ _ _ (by omega)]
      have := workersWeight_upd ws i w n (by omega)
      omega

theorem step_weight {R : Run} {s s' : State} (h : RStep R s s') : s'.weight R.files.length < s.weight R.files.length := by
  have key := fun (i : Nat) (w : Worker) (hi : i < R.files.length) => workersWeight_upd s.workers i w R.files.length hi
  cases h
  case spawn k hcr hm hk =>
    have := key k { s.workers k with phase := .receiving } hk
    simp only [Worker.weight, Phase.weight] at this
    simp only [State.weight, State.setWorker, hm, Main.weight]
    omega
  case listen hcr hm => simp [State.weight, hm, Main.weight]
  case send i w q hcr hi hp hq =>
    have := key i { s.workers i with phase := .received w.1 w.2, queue := q } hi
    simp only [Worker.weight, hp, hq, Phase.weight, List.length_cons] at this
    simp only [State.weight, State.setWorker]
    omega
  case closeStream i hcr hi hp hq hcl hgo =>
    have := key i { s.workers i with closed := true } hi
    simp only [Worker.weight, hcl, openWeight] at this
    simp only [State.weight, State.setWorker]
    omega
  case read i d p hcr hi hp =>
    have := key i { s.workers i with phase := .applying d p (s.overlays p) } hi
    simp only [Worker.weight, hp, Phase.weight] at this
    simp only [State.weight, State.setWorker]
    omega
  case apply i d p o hcr hi hp =>
    simp only [State.weight, applyStep_chan, applyStep_chanClosed, applyStep_main]
    cases applyStep_cases R s i (s.workers i) d p o with
    | ok w' hq hcl hp' hd hw hcr' =>
      have := key i w' hi
      simp only [Worker.weight, hp, hp', hq, hcl, Phase.weight] at this
      rw [hw, hcr']
      omega
    | err e hd hw hcr' =>
      have := key i { s.workers i with phase := .returned (some (.overlay i e)) } hi
      simp only [Worker.weight, hp, Phase.weight] at this
      rw [hw, hcr']
      omega
    | panic hd hw hcr' =>
      rw [hw, hcr', hcr]
      simp [openWeight]
  case handled i hcr hi hp hq hcl =>
    have := key i { s.workers i with phase := .selecting } hi
    simp only [Worker.weight, hp, Phase.weight] at this
    simp only [State.weight, State.setWorker]
    omega
  case deliver i hcr hi hp hcl hlen =>
    have := key i { s.workers i with phase := .returned none } hi
    simp only [Worker.weight, hp, Phase.weight] at this
    simp only [State.weight, State.setWorker, List.length_append, List.length_singleton]
    omega
  case deliverClosed i hcr hi hp hcl => simp [State.weight, hcr, openWeight]
  case senderNil i hcr hi hp hq hcl hgo => simp [State.weight, hcr, openWeight]
  case giveUp i hcr hi hp he =>
    have := key i { s.workers i with phase := .returned (some .canceled) } hi
    simp only [Worker.weight, hp, Phase.weight] at this
    simp only [State.weight, State.setWorker]
    omega
  case finish i r hcr hi hp =>
    have := key i { s.workers i with phase := .done r } hi
    simp only [Worker.weight, hp, Phase.weight] at this
    simp only [State.weight, State.setWorker, finishStep]
    omega
  case closeChan hcr hm hd hcl =>
    simp [State.weight, hcl, openWeight]
  case take i c hcr hm hch =>
    simp only [State.weight, takeStep_workers, takeStep_chan, takeStep_chanClosed, hch, List.length_cons, hm, hcr]
    cases takeStep_cases R s i c with
    | skip h h' _ hc => rw [h', hc, hcr, hm]; simp only [Main.weight]; omega
    | write t h _ h' _ hc => rw [h', hc, hcr, hm]; simp only [Main.weight]; omega
    | writeFails t h _ h' _ hc => rw [h', hc, hcr]; simp only [Main.weight]; omega
    | err e h h' _ hc => rw [h', hc, hcr]; simp only [Main.weight]; omega
    | panic h h' _ hc => rw [h', hc, hm]; simp only [Main.weight, openWeight]; omega
  case drained hcr hm hch hcl => simp [State.weight, hm, Main.weight]
  case wait hcr hm hd => simp [State.weight, hm, Main.weight]

/-- The run is over: crashed, or `Execute` has returned. -/
def State.over (s : State) : Prop := s.crashed = true ∨ ∃ r, s.main = .returned r

/-- A worker that is started and not done can step. -/
theorem worker_progress {R : Run} {s : State} (h : Reach R s) (hc : s.crashed = false) (i : Nat) (hi : i < R.files.length)
    (h0 : (s.workers i).phase ≠ .notStarted) (h1 : ∀ r, (s.workers i).phase ≠ .done r) : ∃ s', RStep R s s' := by
  cases hp : (s.workers i).phase with
  | notStarted => exact absurd hp h0
  | receiving =>
    cases hq : (s.workers i).queue with
    | cons w q => exact ⟨_, .send s i w q hc hi hp hq⟩
    | nil =>
      cases hcl : (s.workers i).closed with
      | false =>
        cases hgo : R.stops i with
        | false => exact ⟨_, .closeStream s i hc hi h0 hq hcl hgo⟩
        | true => exact ⟨_, .senderNil s i hc hi h0 hq hcl hgo⟩
      | true => exact ⟨_, .handled s i hc hi hp hq hcl⟩
  | received d p => exact ⟨_, .read s i d p hc hi hp⟩
  | applying d p o => exact ⟨_, .apply s i d p o hc hi hp⟩
  | selecting =>
    cases hcl : s.chanClosed with
    | true => exact ⟨_, .deliverClosed s i hc hi hp hcl⟩
    | false => exact ⟨_, .deliver s i hc hi hp hcl (reach_room h i hi hp)⟩
  | returned r => exact ⟨_, .finish s i r hc hi hp⟩
  | done r => exact absurd hp (h1 r)

theorem progress {R : Run} {s : State} (h : Reach R s) (ho : ¬ s.over) : ∃ s', RStep R s s' := by
  have hc : s.crashed = false := by
    cases hcr : s.crashed with
    | false => rfl
    | true => exact absurd (.inl hcr) ho
  have hst := reach_started h
  cases hm : s.main with
  | spawning k =>
    have hk : s.spawned R.files.length = k := by simp [State.spawned, hm]
    rw [hk] at hst
    rcases Nat.lt_or_ge k R.files.length with hlt | hge
    · exact ⟨_, .spawn s k hc hm hlt⟩
    · have : k = R.files.length := by omega
      subst this
      exact ⟨_, .listen s hc hm⟩
  | receiving =>
    have hk : s.spawned R.files.length = R.files.length := by simp [State.spawned, hm]
    rw [hk] at hst
    cases hch : s.chan with
    | cons i c => exact ⟨_, .take s i c hc hm hch⟩
    | nil =>
      cases hcl : s.chanClosed with
      | true => exact ⟨_, .drained s hc hm hch hcl⟩
      | false =>
        by_cases hd : s.allDone R.files.length
        · exact ⟨_, .closeChan s hc (by simp [hm]) hd hcl⟩
        · simp only [State.allDone, Classical.not_forall, not_exists] at hd
          obtain ⟨i, hi, hd⟩ := hd
          refine worker_progress h hc i hi ?_ hd
          rw [ne_eq, hst.2 i hi]
          omega
  | waiting =>
    have := (reach_closed h (reach_waiting h (.inl hm)).1).1
    exact ⟨_, .wait s hc hm this⟩
  | returned r => exact absurd (.inr ⟨r, hm⟩) ho

end Yot
