import Mathlib.Logic.Hydra
import Verif.Lemmas.Steps
import Verif.Lemmas.HeapStyle
import Verif.Spec.Steps
import Verif.Props.HeapApply
/-
C73: the goroutines interleaved at single accesses to memory.
-/
namespace Yot
open Spec HM

theorem setStyle_of_fresh (s : Nat) (t : Node) : (setStyle s t).fresh = setStyle s t.fresh := by
  induction t using Node.ind with
  | h hd cs ih =>
    have hk : ∀ cs : List Node, (∀ c ∈ cs, (setStyle s c).fresh = setStyle s c.fresh) →
        Node.freshs (setStyles s cs) = setStyles s (Node.freshs cs) := by
      intro cs
      induction cs with
      | nil => intro _; rfl
      | cons c cs ihc =>
        intro h
        rw [setStyles, Node.freshs, Node.freshs, setStyles, h c (by simp), ihc (fun c' hc' => h c' (by simp [hc']))]
    have := hk cs ih
    cases hd' : hd.kind <;> simp [setStyle, Node.fresh, hd', this]

theorem encode_spec (style : Nat) (h : Heap) (docs : List Node) (f : Forest h docs) :
    ∃ h', Ends (fun k => mapH (encodeOneH style k) (docs.map (fun t => t.hd.addr))) h
      (.ok (docs.map (fun t => if t.content.isEmpty then none else some (setStyle style t)))) h' := by
  induction docs generalizing h with
  | nil => exact ⟨h, Ends.const rfl⟩
  | cons t ts ih =>
    obtain ⟨f1, f2, f3⟩ := forest_cons.1 f
    have hst : Stored h t := by
      have := f1.stored
      simp only [Storeds] at this
      exact this.1
    have hget : h.get t.hd.addr = ⟨t.hd, t.content.map (fun c => c.hd.addr)⟩ := by
      cases t; exact hst.1
    have key : ∃ h1, Ends (fun k => encodeOneH style k t.hd.addr) h
        (.ok (if t.content.isEmpty then none else some (setStyle style t))) h1 ∧ InPlace h h1 t.addrs := by
      by_cases he : t.content.isEmpty = true
      · refine ⟨h, ⟨0, fun k _ => ?_⟩, InPlace.refl _ _⟩
        rw [if_pos he]
        unfold encodeOneH
        beta_reduce
        refine (bind_ok (x := rd t.hd.addr) (a := h.get t.hd.addr) (h' := h) rfl).trans ?_
        rw [hget, if_pos (by simpa using he)]
        rfl
      · obtain ⟨h1, e1, i1, g1⟩ := setStyleH_spec style t h f1
        refine ⟨h1, ?_, i1⟩
        rw [if_neg he]
        have hroot : (setStyle style t).hd.addr = t.hd.addr := by
          have := (addr_of_addrs (setStyle_addrs style) [t]).1
          simpa using this
        have hst1 : Stored h1 (setStyle style t) := by
          have := g1.stored
          simp only [Storeds] at this
          exact this.1
        have e2 := readH_spec _ hst1
        rw [hroot] at e2
        obtain ⟨K, hK⟩ := Ends.bind e1 (f := fun k _ => readH k t.hd.addr >>= fun t => (pure (some t) : HM (Option Node)))
          (Ends.bind e2 (Ends.const (x := pure (some (setStyle style t))) rfl))
        refine ⟨K, fun k hk => ?_⟩
        unfold encodeOneH
        beta_reduce
        refine (bind_ok (x := rd t.hd.addr) (a := h.get t.hd.addr) (h' := h) rfl).trans ?_
        rw [hget, if_neg (by simpa using he)]
        exact hK k hk
    obtain ⟨h1, e1, i1⟩ := key
    obtain ⟨h2, e2⟩ := ih h1 (f2.frame i1.untouched (fun a ha hb => f3 a hb ha))
    exact ⟨h2, Ends.bind e1 (Ends.bind e2 (Ends.const rfl))⟩

/-- One file alone in memory, as on trees. -/
theorem file_spec (E : Sed) (dflt : Str) (style : Nat) (vals : List Node) (js : List Job)
    (hv : ∀ j ∈ js, j.overlay.value ∈ vals ∧ WellFormed j.overlay.value ∧ SearchOk j.overlay) (h : Heap) (docs : List Node)
    (f : Forest h (docs ++ vals)) :
    ∃ r h', Ends (fun k => fileH E dflt style k (docs.map (fun t => t.hd.addr)) (js.map Job.inMemory)) h r h' ∧ r ≠ .stuck ∧
      (∀ outs, r = .ok outs → ∃ ds, handleJobs E dflt docs js = .ok ds ∧ outs.map (Option.map copyOf) = ds.map (handed style)) ∧
      ((∀ j ∈ js, Safe j.overlay) → match r with
        | .err e => handleJobs E dflt docs js = .err e
        | .panic => handleJobs E dflt docs js = .panic
        | _ => True) := by
  obtain ⟨r, h', a1, a2, a3, a4, a5⟩ := jobs_spec E dflt vals js hv h docs docs f rfl
  cases r with
  | stuck => exact absurd rfl a2
  | err e => exact ⟨.err e, h', Ends.bind_err a1, by simp, by simp, fun hs => a5 hs⟩
  | panic => exact ⟨.panic, h', Ends.bind_panic a1, by simp, by simp, fun hs => a5 hs⟩
  | ok _ =>
    obtain ⟨docs', ds, b1, b2, b3, b4⟩ := a4 rfl
    obtain ⟨h2, e2⟩ := encode_spec style h' docs' (forest_append.1 b4).1
    rw [b3] at e2
    refine ⟨_, h2, Ends.bind a1 e2, by simp, ?_, fun _ => trivial⟩
    intro outs ho
    injection ho with ho
    subst ho
    refine ⟨ds, b1, ?_⟩
    rw [List.map_map]
    have key : ∀ d : Node, (Option.map copyOf ∘ fun t : Node => if t.content.isEmpty then none else some (setStyle style t)) d = handed style d.fresh := by
      intro d
      have h1 : d.fresh.content.isEmpty = d.content.isEmpty := by
        obtain ⟨hd, cs⟩ := d
        cases cs <;> rfl
      simp only [Function.comp, handed, h1]
      split
      · rfl
      · rw [Option.map_some, ← fresh_eq_copyOf, ← fresh_eq_copyOf, setStyle_of_fresh, setStyle_of_fresh]
        rw [fresh_fresh]
    have key2 : ∀ d : Node, handed style d.fresh = handed style d := by
      intro d
      rw [← key d]
      simp only [Function.comp, handed]
      split <;> rfl
    rw [List.map_congr_left (fun d _ => key d)]
    have := congrArg (List.map (handed style)) b2
    simp only [List.map_map] at this
    refine Eq.trans this ?_
    exact List.map_congr_left (fun d _ => key2 d)

theorem forest_blank {h : Heap} {ts : List Node} (f : Forest h ts) : Forest h.blank ts :=
  f.frame (A := []) ⟨Nat.le_refl _, fun a ha _ => blank_get ha⟩ (by simp)

theorem forest_closed {h : Heap} {ts : List Node} (f : Forest h ts) : ∀ a ∈ Node.addrss ts, CellIn (fun x => x ∈ Node.addrss ts) (h.get a) := by
  have key : ∀ t : Node, Stored h t → ∀ a ∈ t.addrs, CellIn (fun x => x ∈ t.addrs) (h.get a) := by
    intro t
    induction t using Node.ind with
    | h hd cs ih =>
      intro hs a ha
      rw [addrs_mk, List.mem_cons] at ha
      rcases ha with rfl | ha
      · rw [hs.1]
        refine ⟨by rw [addrs_mk]; simp, fun x hx => ?_⟩
        obtain ⟨c, hc, rfl⟩ := List.mem_map.1 hx
        rw [addrs_mk]
        exact List.mem_cons_of_mem _ (addrs_subset hc (root_mem_addrs c))
      · obtain ⟨c, hc, hac⟩ := List.mem_flatMap.1 (addrss_eq_flatMap cs ▸ ha)
        have := ih c hc ((storeds_iff h cs).1 hs.2 c hc) a hac
        refine ⟨?_, fun x hx => ?_⟩
        · rw [addrs_mk]; exact List.mem_cons_of_mem _ (addrs_subset hc this.1)
        · rw [addrs_mk]; exact List.mem_cons_of_mem _ (addrs_subset hc (this.2 x hx))
  intro a ha
  obtain ⟨c, hc, hac⟩ := List.mem_flatMap.1 (addrss_eq_flatMap ts ▸ ha)
  have := key c ((storeds_iff h ts).1 f.stored c hc) a hac
  exact ⟨addrs_subset hc this.1, fun x hx => addrs_subset hc (this.2 x hx)⟩

theorem file_addrs (R : Run) {t a : Nat} (ha : a ∈ Node.addrss (R.file t).nodes) :
    ∃ f, R.files[t]? = some f ∧ (R.file t) = f ∧ a ∈ Node.addrss (R.files.flatMap (fun f => f.nodes)) := by
  cases hf : R.files[t]? with
  | none => simp [Run.file, hf, Node.addrss] at ha
  | some f =>
    have he : R.file t = f := by simp [Run.file, hf]
    refine ⟨f, rfl, he, ?_⟩
    rw [addrss_eq_flatMap, List.mem_flatMap] at ha ⊢
    obtain ⟨d, h1, h2⟩ := ha
    exact ⟨d, List.mem_flatMap.2 ⟨f, List.mem_of_getElem? hf, he ▸ h1⟩, h2⟩

theorem files_apart (R : Run) {h : Heap} {vals : List Node} (f : Forest h (R.files.flatMap (fun f => f.nodes) ++ vals)) {s t a : Nat}
    (hst : s ≠ t) (hs : a ∈ Node.addrss (R.file s).nodes) : a ∉ Node.addrss (R.file t).nodes := by
  intro ht
  obtain ⟨f1, h1, e1, _⟩ := file_addrs R hs
  obtain ⟨f2, h2, e2, _⟩ := file_addrs R ht
  have hd := (forest_append.1 f).1.distinct
  have he : Node.addrss (R.files.flatMap (fun f => f.nodes)) = R.files.flatMap (fun f => Node.addrss f.nodes) := by
    simp only [addrss_eq_flatMap, List.flatMap_assoc]
  rw [he, List.nodup_flatMap] at hd
  have hp := List.pairwise_iff_getElem.1 hd.2
  obtain ⟨i1, j1⟩ := List.getElem?_eq_some_iff.1 h1
  obtain ⟨i2, j2⟩ := List.getElem?_eq_some_iff.1 h2
  rw [e1] at hs
  rw [e2] at ht
  rcases Nat.lt_or_gt_of_ne hst with hlt | hlt
  · have := hp s t i1 i2 hlt
    rw [Function.onFun, j1, j2] at this
    exact this hs ht
  · have := hp t s i2 i1 hlt
    rw [Function.onFun, j1, j2] at this
    exact this ht hs

/-- The parts of memory of the goroutines of a run. -/
def runParts (R : Run) (h : Heap) (vals : List Node) (m : RunInMemory R h vals) : Parts where
  base := h.next
  mine t a := a ∈ Node.addrss (R.file t).nodes
  vals a := a ∈ Node.addrss vals
  orig o := (R.overlays0 o).onMissing.action
  res o := ((R.overlays0 o).onMissing.resolve R.dflt).action
  own := by
    intro t a ha
    obtain ⟨_, _, _, hn⟩ := file_addrs R ha
    exact (m.1.live a (by rw [addrss_append]; simp [hn])).2
  val := fun a ha => (m.1.live a (by rw [addrss_append]; simp [ha])).2
  apart := fun s t a hst hs => files_apart R m.1 hst hs
  off := by
    intro t a ha hm
    obtain ⟨_, _, _, hn⟩ := file_addrs R hm
    exact (forest_append.1 m.1).2.2 a hn ha

theorem file_forest (R : Run) {h : Heap} {vals : List Node} (m : RunInMemory R h vals) (t : Nat) : Forest h ((R.file t).nodes ++ vals) := by
  cases hf : R.files[t]? with
  | none =>
    have : (R.file t).nodes = [] := by simp [Run.file, hf]
    rw [this]
    exact (forest_append.1 m.1).2.1
  | some f =>
    have he : R.file t = f := by simp [Run.file, hf]
    rw [he]
    obtain ⟨hi, hj⟩ := List.getElem?_eq_some_iff.1 hf
    refine m.1.sub ((List.Sublist.append ?_ (List.Sublist.refl vals)).subperm)
    rw [List.flatMap]
    exact List.sublist_flatten_of_mem (List.mem_map.2 ⟨f, List.mem_of_getElem? hf, rfl⟩)

/-- Goroutine `t` alone. -/
def alone (R : Run) (fuel t : Nat) : HM (List (Option Node)) :=
  fileH R.sed R.dflt (getStyle (getStyleFromConfig R.style)) fuel ((R.file t).nodes.map (fun t => t.hd.addr)) ((R.jobsP t).map JobP.plain)

theorem handleJobsP_nil (E : Sed) (dflt : Str) (fuel : Nat) (js : List JobP) : handleJobsP E dflt fuel [] js = .ret () := by
  induction js with
  | nil => rfl
  | cons j js ih => rw [handleJobsP]; exact ih

theorem handleJobsH_nil (E : Sed) (dflt : Str) (fuel : Nat) (js : List JobH) (h : Heap) : handleJobsH E dflt fuel [] js h = (.ok (), h) := by
  induction js with
  | nil => rfl
  | cons j js ih => exact ih

theorem alone_none (R : Run) (fuel t : Nat) (ht : R.files.length ≤ t) (h : Heap) :
    (R.world h fuel).prog t = .ret [] ∧ alone R fuel t h = (.ok [], h) := by
  have hf : (R.file t).nodes = [] := by simp [Run.file, List.getElem?_eq_none ht]
  constructor
  · show fileP _ _ _ _ _ _ = _
    rw [hf]
    show (handleJobsP _ _ _ [] _).bind _ = _
    rw [handleJobsP_nil]
    rfl
  · unfold alone fileH
    rw [hf]
    exact bind_ok (handleJobsH_nil _ _ _ _ h)

/-- The overlays of the run can be handled: their searches return nodes of the searched
document, and the same ones wherever it lies; their values are trees of documents. -/
def Handled (R : Run) : Prop :=
  ∀ i, i < R.files.length → ∀ w ∈ R.work i, SearchOk (R.overlays0 w.2) ∧ WellFormed (R.overlays0 w.2).value

theorem world_good (R : Run) (h : Heap) (vals : List Node) (m : RunInMemory R h vals) (hd : Handled R) (fuel t : Nat) :
    Good ((runParts R h vals m).turf t) ((R.world h fuel).prog t) (fun _ => False) h.blank (alone R fuel t h.blank) := by
  by_cases ht : t < R.files.length
  · have hty := (runParts R h vals m).typed h rfl
      (fun t a ha => forest_closed (forest_append.1 (file_forest R m t)).1 a ha)
      (fun a ha => forest_closed (forest_append.1 m.1).2.1 a ha) t
    refine (file_sim ((runParts R h vals m).hd t) R.sed R.dflt _ fuel _ ?_ (R.jobsP t) ?_ _ _ hty).1
    · intro p hp
      obtain ⟨d, h1, rfl⟩ := List.mem_map.1 hp
      exact .inl (addrs_subset h1 (root_mem_addrs d))
    · intro j hj
      obtain ⟨w, h1, rfl⟩ := List.mem_map.1 hj
      refine ⟨fun q hq => ((hd t ht w h1).1 q hq).2, .inr ?_, rfl, rfl⟩
      exact addrs_subset (m.2 t ht w h1) (root_mem_addrs _)
  · obtain ⟨h1, h2⟩ := alone_none R fuel t (Nat.not_lt.1 ht) h.blank
    have h3 := (alone_none R fuel t (Nat.not_lt.1 ht) h).1
    rw [h3, h2]
    rfl

theorem world_together (R : Run) (h : Heap) (vals : List Node) (m : RunInMemory R h vals) (hd : Handled R) (fuel : Nat)
    (st : World (List (Option Node))) (hi : Interleaved h.next (R.world h fuel) st) :
    ∃ H K, Together (runParts R h vals m) h (fun t => alone R fuel t h.blank) st H K := by
  refine Together.all (P := runParts R h vals m) ⟨_, _, Together.start (runParts R h vals m) h rfl _ _
      (fun t a ha => forest_closed (forest_append.1 (file_forest R m t)).1 a ha)
      (fun a ha => forest_closed (forest_append.1 m.1).2.1 a ha) (world_good R h vals m hd fuel)⟩ hi

/-! ### C73 -/

/-- **C73**: however the goroutines are interleaved, at no time are two of them about to
access the same node, one of them writing. -/
theorem C73_no_node_race (R : Run) (h : Heap) (vals : List Node) (m : RunInMemory R h vals) (hd : Handled R) (fuel : Nat)
    (st : World (List (Option Node))) (hi : Interleaved h.next (R.world h fuel) st) : ¬ NodeRace h.next st := by
  obtain ⟨H, K, i⟩ := world_together R h vals m hd fuel st hi
  rintro ⟨t, u, p, htu, h1, h2⟩
  have gt := i.good t
  have gu := i.good u
  have hw : ∃ a, ((runParts R h vals m).turf t).W a ∧ p = toPtr h.next t a := by
    unfold nextTouch at h1
    cases hp : st.prog t <;> rw [hp] at h1 gt <;> simp at h1
    · exact ⟨_, gt.1, h1.symm⟩
    · have hb : h.next ≤ st.next t := by rw [i.next t]; exact (i.typed t).base
      refine ⟨st.next t, .inr hb, ?_⟩
      rw [← h1]
      simp [toPtr, Nat.not_lt.2 hb]
  have hr : ∃ a, ((runParts R h vals m).turf u).T a ∧ p = toPtr h.next u a := by
    unfold nextTouch at h2
    cases hp : st.prog u <;> rw [hp] at h2 gu <;> simp at h2
    · exact ⟨_, gu.1, h2.symm⟩
    · exact ⟨_, .inl gu.1, h2.symm⟩
    · have hb : h.next ≤ st.next u := by rw [i.next u]; exact (i.typed u).base
      refine ⟨st.next u, .inl (.inr hb), ?_⟩
      rw [← h2]
      simp [toPtr, Nat.not_lt.2 hb]
  obtain ⟨a, wa, rfl⟩ := hw
  obtain ⟨b, tb, e⟩ := hr
  exact (runParts R h vals m).clash htu wa tb e

/-- C73: what the names of `Model/Steps` stand for: goroutine `t` has a name for a pointer exactly if it
points to memory that was there before or that `t` itself allocated, never for memory of another
goroutine; and names and pointers correspond. -/
theorem C73_own_names (base t : Nat) : (∀ p a, fromPtr t p = some a ↔ p = .old a ∨ p = .new t a) ∧
    (∀ a, fromPtr t (toPtr base t a) = some a) ∧ (∀ a s b, s ≠ t → toPtr base t a ≠ .new s b) := by
  refine ⟨?_, ?_, ?_⟩
  · intro p a
    cases p with
    | old b => simp [fromPtr]
    | new s b =>
      simp only [fromPtr]
      split <;> simp_all
  · intro a
    unfold toPtr
    split <;> simp [fromPtr]
  · intro a s b h
    unfold toPtr
    split
    · simp
    · intro e
      injection e with e1 _
      exact h e1.symm

/-- **C73**: no goroutine ever comes upon memory of another one. -/
theorem C73_never_mixed (R : Run) (h : Heap) (vals : List Node) (m : RunInMemory R h vals) (hd : Handled R) (fuel : Nat)
    (st : World (List (Option Node))) (hi : Interleaved h.next (R.world h fuel) st) : st.mixed = false := by
  obtain ⟨H, K, i⟩ := world_together R h vals m hd fuel st hi
  exact i.mixed

/-- **C73**: the values of the overlays are at all times as they were read. -/
theorem C73_values_unchanged (R : Run) (h : Heap) (vals : List Node) (m : RunInMemory R h vals) (hd : Handled R) (fuel : Nat)
    (st : World (List (Option Node))) (hi : Interleaved h.next (R.world h fuel) st) :
    ∀ a ∈ Node.addrss vals, st.node (.old a) = (R.world h fuel).node (.old a) := by
  obtain ⟨H, K, i⟩ := world_together R h vals m hd fuel st hi
  exact fun a ha => i.same a ha

/-- **C73**: an overlay's action is at all times the given one, or that with the default
filled in. -/
theorem C73_actions (R : Run) (h : Heap) (vals : List Node) (m : RunInMemory R h vals) (hd : Handled R) (fuel : Nat)
    (st : World (List (Option Node))) (hi : Interleaved h.next (R.world h fuel) st) (o : Nat) :
    st.act o = (R.overlays0 o).onMissing.action ∨ st.act o = ((R.overlays0 o).onMissing.resolve R.dflt).action := by
  obtain ⟨H, K, i⟩ := world_together R h vals m hd fuel st hi
  exact i.act o

theorem jobs_plain (R : Run) (hR : R.Points) {t : Nat} (ht : t < R.files.length) :
    (R.jobsP t).map JobP.plain = (R.file t).jobs.map Job.inMemory := by
  rw [← hR.1 t ht, Run.jobsP, List.map_map, List.map_map]
  rfl

theorem alone_spec (R : Run) (hR : R.Points) (h : Heap) (vals : List Node) (m : RunInMemory R h vals) (hd : Handled R) (t : Nat)
    (ht : t < R.files.length) :
    ∃ F r h', (∀ fuel, F ≤ fuel → alone R fuel t h.blank = (r, h')) ∧ r ≠ .stuck ∧
      (∀ outs, r = .ok outs → ∃ ds, runFile R.sed R.dflt (R.file t) = .ok ds ∧
        outs.map (Option.map copyOf) = ds.map (handed (getStyle (getStyleFromConfig R.style)))) ∧
      ((∀ w ∈ R.work t, Safe (R.overlays0 w.2)) → match r with
        | .err e => runFile R.sed R.dflt (R.file t) = .err e
        | .panic => runFile R.sed R.dflt (R.file t) = .panic
        | _ => True) := by
  have hjobs : ∀ j ∈ (R.file t).jobs, ∃ w ∈ R.work t, j.overlay = R.overlays0 w.2 := by
    intro j hj
    rw [← hR.1 t ht] at hj
    obtain ⟨w, h1, rfl⟩ := List.mem_map.1 hj
    exact ⟨w, h1, rfl⟩
  have hv : ∀ j ∈ (R.file t).jobs, j.overlay.value ∈ vals ∧ WellFormed j.overlay.value ∧ SearchOk j.overlay := by
    intro j hj
    obtain ⟨w, h1, e⟩ := hjobs j hj
    rw [e]
    exact ⟨m.2 t ht w h1, (hd t ht w h1).2, (hd t ht w h1).1⟩
  obtain ⟨r, h', ⟨F, hF⟩, a2, a3, a4⟩ := file_spec R.sed R.dflt (getStyle (getStyleFromConfig R.style)) vals (R.file t).jobs hv h.blank
    (R.file t).nodes (forest_blank (file_forest R m t))
  refine ⟨F, r, h', fun fuel hf => ?_, a2, a3, fun hs => a4 (fun j hj => ?_)⟩
  · unfold alone
    rw [jobs_plain R hR ht]
    exact hF fuel hf
  · obtain ⟨w, h1, e⟩ := hjobs j hj
    rw [e]; exact hs w h1

/-- A common bound. -/
theorem common_bound {p : Nat → Nat → Prop} (n : Nat) (h : ∀ t, t < n → ∃ F, ∀ f, F ≤ f → p t f) :
    ∃ F, ∀ f, F ≤ f → ∀ t, t < n → p t f := by
  induction n with
  | zero => exact ⟨0, fun _ _ t ht => absurd ht (Nat.not_lt_zero t)⟩
  | succ n ih =>
    obtain ⟨F, hF⟩ := ih (fun t ht => h t (Nat.lt_succ_of_lt ht))
    obtain ⟨G, hG⟩ := h n (Nat.lt_succ_self n)
    refine ⟨max F G, fun f hf t ht => ?_⟩
    rcases Nat.lt_succ_iff_lt_or_eq.1 ht with h1 | rfl
    · exact hF f (by omega) t h1
    · exact hG f (by omega)

/-- **C73**: however the goroutines are interleaved, a goroutine that has ended has given
the encoder what the file's overlays, applied one after the other to this file alone,
produce; it has not run out of stack. -/
theorem C73_same_documents (R : Run) (hR : R.Points) (h : Heap) (vals : List Node) (m : RunInMemory R h vals) (hd : Handled R) :
    ∃ F, ∀ fuel, F ≤ fuel → ∀ st, Interleaved h.next (R.world h fuel) st → ∀ i, i < R.files.length →
      st.prog i ≠ .stop ∧ ∀ outs, st.prog i = .ret outs → ∃ ds, runFile R.sed R.dflt (R.file i) = .ok ds ∧
        outs.map (Option.map copyOf) = ds.map (handed (getStyle (getStyleFromConfig R.style))) := by
  obtain ⟨F, hF⟩ := common_bound (p := fun t f => ∀ st, Interleaved h.next (R.world h f) st →
      st.prog t ≠ .stop ∧ ∀ outs, st.prog t = .ret outs → ∃ ds, runFile R.sed R.dflt (R.file t) = .ok ds ∧
        outs.map (Option.map copyOf) = ds.map (handed (getStyle (getStyleFromConfig R.style)))) R.files.length (by
    intro t ht
    obtain ⟨F, r, h', hF, a2, a3, _⟩ := alone_spec R hR h vals m hd t ht
    refine ⟨F, fun f hf st hi => ?_⟩
    obtain ⟨H, K, i⟩ := world_together R h vals m hd f st hi
    have g := i.good t
    rw [hF f hf] at g
    constructor
    · intro hp
      rw [hp] at g
      simp only [Good, Prod.mk.injEq] at g
      exact a2 g.1
    · intro outs hp
      rw [hp] at g
      simp only [Good, Prod.mk.injEq] at g
      exact a3 outs g.1)
  exact ⟨F, fun fuel hf st hi i hi' => hF fuel hf i hi' st hi⟩

/-- The text of a file is made of what the encoder is given, wherever that lies. -/
theorem textOf_eq (emit : Bool → Node → Res Err Str) (he : ∀ b n, emit b n = emit b (copyOf n)) (style : Nat) :
    ∀ (outs : List (Option Node)) (ds : List Node) (i : Nat) (w : Bool), outs.map (Option.map copyOf) = ds.map (handed style) →
      textOf emit i w outs = encodeLoop emit style i w ds := by
  intro outs
  induction outs with
  | nil =>
    intro ds i w h
    cases ds with
    | nil => rfl
    | cons d ds => simp at h
  | cons o outs ih =>
    intro ds i w h
    cases ds with
    | nil => simp at h
    | cons d ds =>
      rw [List.map_cons, List.map_cons, List.cons.injEq] at h
      obtain ⟨h1, h2⟩ := h
      rw [encodeLoop]
      unfold handed at h1
      cases o with
      | none =>
        by_cases hc : d.content.isEmpty = true
        · rw [if_pos hc, textOf, ih ds _ _ h2]
        · rw [if_neg hc] at h1; cases h1
      | some n =>
        by_cases hc : d.content.isEmpty = true
        · rw [if_pos hc] at h1; cases h1
        · rw [if_neg hc] at h1 ⊢
          rw [Option.map_some, Option.some.injEq] at h1
          rw [textOf, ih ds _ _ h2, he _ n, h1, ← he]

/-- **C73**: so what is written for the file is the rendering of its own result. -/
theorem C73_same_text (R : Run) (hR : R.Points) (h : Heap) (vals : List Node) (m : RunInMemory R h vals) (hd : Handled R)
    (he : ∀ b n, R.emit b n = R.emit b (copyOf n)) :
    ∃ F, ∀ fuel, F ≤ fuel → ∀ st, Interleaved h.next (R.world h fuel) st → ∀ i, i < R.files.length →
      ∀ outs, st.prog i = .ret outs → ∃ ds, runFile R.sed R.dflt (R.file i) = .ok ds ∧
        textOf R.emit 0 false outs = encodeNodes R.emit R.style ds := by
  obtain ⟨F, hF⟩ := C73_same_documents R hR h vals m hd
  refine ⟨F, fun fuel hf st hi i hi' outs ho => ?_⟩
  obtain ⟨ds, h1, h2⟩ := (hF fuel hf st hi i hi').2 outs ho
  exact ⟨ds, h1, textOf_eq R.emit he _ outs ds 0 false h2⟩

/-- **C73**: and one that has failed or crashed does so alone as well, if the values merged
have no alias nodes. -/
theorem C73_same_failure (R : Run) (hR : R.Points) (h : Heap) (vals : List Node) (m : RunInMemory R h vals) (hd : Handled R)
    (hs : ∀ i, i < R.files.length → ∀ w ∈ R.work i, (R.overlays0 w.2).action = .delete ∨ (R.overlays0 w.2).action = .replace ∨
      (R.overlays0 w.2).action = .combine ∨ AllNodes (fun hd => hd.kind ≠ .document ∧ hd.kind ≠ .alias) (R.overlays0 w.2).value) :
    ∃ F, ∀ fuel, F ≤ fuel → ∀ st, Interleaved h.next (R.world h fuel) st → ∀ i, i < R.files.length →
      (∀ e, st.prog i = .fail e → runFile R.sed R.dflt (R.file i) = .err e) ∧
      (st.prog i = .crash → runFile R.sed R.dflt (R.file i) = .panic) := by
  obtain ⟨F, hF⟩ := common_bound (p := fun t f => ∀ st, Interleaved h.next (R.world h f) st →
      (∀ e, st.prog t = .fail e → runFile R.sed R.dflt (R.file t) = .err e) ∧
      (st.prog t = .crash → runFile R.sed R.dflt (R.file t) = .panic)) R.files.length (by
    intro t ht
    obtain ⟨F, r, h', hF, a2, a3, a4⟩ := alone_spec R hR h vals m hd t ht
    have a4 := a4 (hs t ht)
    refine ⟨F, fun f hf st hi => ?_⟩
    obtain ⟨H, K, i⟩ := world_together R h vals m hd f st hi
    have g := i.good t
    rw [hF f hf] at g
    constructor
    · intro e hp
      rw [hp] at g
      simp only [Good, Prod.mk.injEq] at g
      rw [g.1] at a4
      exact a4
    · intro hp
      rw [hp] at g
      simp only [Good, Prod.mk.injEq] at g
      rw [g.1] at a4
      exact a4)
  exact ⟨F, fun fuel hf st hi i hi' => hF fuel hf i hi' st hi⟩

/-- **C73**: a goroutine that has not ended can always go on: none waits for another. -/
theorem C73_no_waiting {α : Type} (base : Nat) (s : World α) (t : Nat) (h : nextTouch base s t ≠ none) : ∃ s', Access base t s s' := by
  unfold nextTouch at h
  cases hp : s.prog t <;> rw [hp] at h <;> try exact absurd rfl h
  · rename_i p k
    cases hc : fromShared t (s.node (toPtr base t p)) with
    | none => exact ⟨_, .mixed hp hc⟩
    | some c => exact ⟨_, .rd hp hc⟩
  · exact ⟨_, .wr hp⟩
  · exact ⟨_, .alloc hp⟩
  · exact ⟨_, .rdAct hp⟩
  · exact ⟨_, .wrAct hp⟩

/-- What remains of a program after one access. -/
inductive After {α : Type} : Prog α → Prog α → Prop
  | rd {p k c} : After (k c) (.rd p k)
  | wr {p c k} : After k (.wr p c k)
  | alloc {c k a} : After (k a) (.alloc c k)
  | rdAct {o k a} : After (k a) (.rdAct o k)
  | wrAct {o a k} : After k (.wrAct o a k)

theorem after_wf {α : Type} : WellFounded (After (α := α)) := by
  constructor
  intro P
  induction P with
  | ret a => exact ⟨_, fun Q h => by cases h⟩
  | fail e => exact ⟨_, fun Q h => by cases h⟩
  | crash => exact ⟨_, fun Q h => by cases h⟩
  | stop => exact ⟨_, fun Q h => by cases h⟩
  | rd p k ih => exact ⟨_, fun Q h => by cases h; exact ih _⟩
  | wr p c k ih => exact ⟨_, fun Q h => by cases h; exact ih⟩
  | alloc c k ih => exact ⟨_, fun Q h => by cases h; exact ih _⟩
  | rdAct o k ih => exact ⟨_, fun Q h => by cases h; exact ih _⟩
  | wrAct o a k ih => exact ⟨_, fun Q h => by cases h; exact ih⟩

theorem access_after {α : Type} {base t : Nat} {s s' : World α} (a : Access base t s s') (hm : s'.mixed = false) :
    ∃ k, s'.prog = upd s.prog t k ∧ After k (s.prog t) := by
  cases a with
  | rd hp hc => exact ⟨_, rfl, hp ▸ .rd⟩
  | mixed hp hc => cases hm
  | wr hp => exact ⟨_, rfl, hp ▸ .wr⟩
  | alloc hp => exact ⟨_, rfl, hp ▸ .alloc⟩
  | rdAct hp => exact ⟨_, rfl, hp ▸ .rdAct⟩
  | wrAct hp => exact ⟨_, rfl, hp ▸ .wrAct⟩

/-- **C73**: and there is no endless execution. -/
theorem C73_no_endless_run (R : Run) (h : Heap) (vals : List Node) (m : RunInMemory R h vals) (hd : Handled R) (fuel : Nat) :
    ¬ ∃ f : Nat → World (List (Option Node)), f 0 = R.world h fuel ∧ ∀ k, ∃ t, Access h.next t (f k) (f (k + 1)) := by
  rintro ⟨f, h0, hf⟩
  have hi : ∀ k, Interleaved h.next (R.world h fuel) (f k) := by
    intro k
    induction k with
    | zero => exact h0 ▸ .start
    | succ k ih => obtain ⟨t, ht⟩ := hf k; exact .step ih ht
  have hidle : ∀ k t, R.files.length ≤ t → (f k).prog t = .ret [] := by
    intro k t ht
    induction k with
    | zero => rw [h0]; exact (alone_none R fuel t ht h).1
    | succ k ih =>
      obtain ⟨s, hs⟩ := hf k
      obtain ⟨q, e, a⟩ := access_after hs (C73_never_mixed R h vals m hd fuel _ (hi (k + 1)))
      rw [e]
      by_cases hst : t = s
      · subst hst; rw [ih] at a; cases a
      · rw [upd_other _ _ hst]; exact ih
  have wf := (after_wf (α := List (Option Node))).cutExpand
  have hdec : ∀ k, Relation.CutExpand After (Multiset.map (f (k + 1)).prog (Multiset.range R.files.length))
      (Multiset.map (f k).prog (Multiset.range R.files.length)) := by
    intro k
    obtain ⟨s, hs⟩ := hf k
    obtain ⟨q, e, a⟩ := access_after hs (C73_never_mixed R h vals m hd fuel _ (hi (k + 1)))
    have hlt : s < R.files.length := by
      by_contra hge
      rw [hidle k s (Nat.not_lt.1 hge)] at a
      cases a
    have hmem : s ∈ Multiset.range R.files.length := Multiset.mem_range.2 hlt
    obtain ⟨rest, hrest⟩ := Multiset.exists_cons_of_mem hmem
    have hns : s ∉ rest := by
      have := Multiset.nodup_range R.files.length
      rw [hrest, Multiset.nodup_cons] at this
      exact this.1
    rw [hrest, Multiset.map_cons, Multiset.map_cons, e, upd_same]
    have : Multiset.map (upd (f k).prog s q) rest = Multiset.map (f k).prog rest :=
      Multiset.map_congr rfl (fun t ht => upd_other _ _ (fun e => hns (e ▸ ht)))
    rw [this, ← Multiset.singleton_add, ← Multiset.singleton_add]
    exact Relation.cutExpand_single_add a _
  obtain ⟨x, ⟨k, rfl⟩, hmin⟩ := wf.has_min (Set.range fun k => Multiset.map (f k).prog (Multiset.range R.files.length)) ⟨_, 0, rfl⟩
  exact hmin _ ⟨k + 1, rfl⟩ (hdec k)

/-! ### The hypotheses can be met; the action of a shared overlay is raced for -/

/-- Let goroutine `t` do its next access. -/
def stepOf {α : Type} (base t : Nat) (s : World α) : World α :=
  match s.prog t with
  | .rd p k => match fromShared t (s.node (toPtr base t p)) with
    | some c => s.goOn t (k c)
    | none => { s with mixed := true }
  | .wr p c k => (s.put (toPtr base t p) (toShared base t c)).goOn t k
  | .alloc c k =>
    { s.put (.new t (s.next t)) (toShared base t { c with hd := { c.hd with addr := s.next t } }) with
          next := upd s.next t (s.next t + 1) }.goOn t (k (s.next t))
  | .rdAct o k => s.goOn t (k (s.act o))
  | .wrAct o a k => { s with act := upd s.act o a }.goOn t k
  | _ => s

theorem stepOf_interleaved {α : Type} {base : Nat} {s0 s : World α} (h : Interleaved base s0 s) (t : Nat) :
    Interleaved base s0 (stepOf base t s) := by
  unfold stepOf
  cases hp : s.prog t with
  | rd p k =>
    simp only
    cases hc : fromShared t (s.node (toPtr base t p)) with
    | some c => exact .step h (.rd hp hc)
    | none => exact .step h (.mixed hp hc)
  | wr p c k => exact .step h (.wr hp)
  | alloc c k => exact .step h (.alloc hp)
  | rdAct o k => exact .step h (.rdAct hp)
  | wrAct o a k => exact .step h (.wrAct hp)
  | _ => exact h

/-- Let the goroutines do their accesses in the given order. -/
def schedule {α : Type} (base : Nat) (s : World α) (ts : List Nat) : World α := ts.foldl (fun s t => stepOf base t s) s

theorem schedule_interleaved {α : Type} {base : Nat} {s0 : World α} (ts : List Nat) : ∀ {s}, Interleaved base s0 s →
    Interleaved base s0 (schedule base s ts) := by
  induction ts with
  | nil => intro s h; exact h
  | cons t ts ih => intro s h; exact ih (stepOf_interleaved h t)

/-- The document `x: 1` at the addresses from `a` on. -/
def racingDoc (a : Nat) : Node :=
  .mk { kind := .document, addr := a, nilc := false } [.mk { kind := .mapping, addr := a + 1, nilc := false }
    [.mk { kind := .scalar, addr := a + 2, value := c!"x" } [], .mk { kind := .scalar, addr := a + 3, value := c!"1" } []]]

/-- An overlay that finds nothing in them. -/
def racingOverlay : Overlay :=
  { query := [⟨c!"b", findNames [c!"b"]⟩], action := .merge, value := .mk { kind := .scalar, addr := 9, value := c!"v" } [] }

/-- Two files with this overlay in common; the configured default is to inject. -/
def racingRun : Run where
  sed := Ex.noSed
  dflt := c!"inject"
  files := [{ nodes := [racingDoc 1], overlays := [racingOverlay] }, { nodes := [racingDoc 5], overlays := [racingOverlay] }]
  work := fun _ => [(0, 0)]
  overlays0 := fun _ => racingOverlay
  emit := fun _ _ => .ok []
  style := []
  outDir := []
  writeFails := fun _ _ => false

/-- Their memory. -/
def racingHeap : Heap where
  get a :=
    if a = 1 then ⟨{ kind := .document, addr := 1, nilc := false }, [2]⟩
    else if a = 2 then ⟨{ kind := .mapping, addr := 2, nilc := false }, [3, 4]⟩
    else if a = 3 then ⟨{ kind := .scalar, addr := 3, value := c!"x" }, []⟩
    else if a = 4 then ⟨{ kind := .scalar, addr := 4, value := c!"1" }, []⟩
    else if a = 5 then ⟨{ kind := .document, addr := 5, nilc := false }, [6]⟩
    else if a = 6 then ⟨{ kind := .mapping, addr := 6, nilc := false }, [7, 8]⟩
    else if a = 7 then ⟨{ kind := .scalar, addr := 7, value := c!"x" }, []⟩
    else if a = 8 then ⟨{ kind := .scalar, addr := 8, value := c!"1" }, []⟩
    else if a = 9 then ⟨{ kind := .scalar, addr := 9, value := c!"v" }, []⟩
    else {}
  next := 10

theorem racing_inMemory : RunInMemory racingRun racingHeap [racingOverlay.value] := by
  refine ⟨⟨?_, by decide, by decide⟩, fun i _ w _ => by simp [racingRun]⟩
  simp [racingRun, racingDoc, racingOverlay, Storeds, Stored, racingHeap]

theorem racing_handled : Handled racingRun := by
  intro i _ w _
  constructor
  · intro q hq
    have : q = ⟨c!"b", findNames [c!"b"]⟩ := by simpa [racingRun, racingOverlay, Overlay.queries] using hq
    subst this
    exact C53_names_searchable _ _
  · simp [racingRun, racingOverlay, WellFormed, WellFormeds, Shaped]

theorem racing_points : racingRun.Points := by
  refine ⟨?_, fun _ _ => rfl, fun _ _ => rfl⟩
  intro i hi
  have : i = 0 ∨ i = 1 := by
    have : i < 2 := hi
    omega
  rcases this with rfl | rfl <;> rfl

/-- **C73**: the action of a shared overlay is written without synchronisation: two
goroutines can both be about to write it. -/
theorem C73_action_race : ∃ (R : Run) (h : Heap) (vals : List Node) (fuel : Nat) (st : World (List (Option Node))),
    R.Points ∧ RunInMemory R h vals ∧ Handled R ∧ Interleaved h.next (R.world h fuel) st ∧ ActionRace h.next st := by
  refine ⟨racingRun, racingHeap, _, 20, schedule 10 (racingRun.world racingHeap 20) [0, 0, 0, 0, 0, 1, 1, 1, 1, 1],
    racing_points, racing_inMemory, racing_handled, schedule_interleaved _ .start, 0, 1, 0, by decide, ?_, .inr ?_⟩
  · decide +kernel
  · decide +kernel

/-- What the goroutines have ended with. -/
def ended {α : Type} (s : World α) (t : Nat) : Option α :=
  match s.prog t with
  | .ret a => some a
  | _ => none


/-! Taking turns, both write the action, inject `b: v` each into its document, and end. -/
example :
    let st := schedule 10 (racingRun.world racingHeap 40) ((List.range 400).map (fun k => k % 2))
    let leaf := fun s : Str => Node.mk { kind := .scalar, value := s } []
    let doc := Node.mk { kind := .document, nilc := false } [.mk { kind := .mapping, nilc := false } [leaf c!"x", leaf c!"1", leaf c!"b", leaf c!"v"]]
    (ended st 0).map (List.map (Option.map Node.fresh)) = some [some doc] ∧
    (ended st 1).map (List.map (Option.map Node.fresh)) = some [some doc] := by
  decide +kernel

end Yot
