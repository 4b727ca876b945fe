import Verif.Props.HeapApply
import Verif.Lemmas.HeapStyle
import Verif.Props.Output
/-
C53 for a whole file, up to what the encoder is given.
-/
namespace Yot
open Spec HM Ex

/-- What the encoder is given for a document: nothing if it is empty, else the document
with the output style set, wherever it lies. -/
def givenToEncoder (style : Nat) (t : Node) : Option Node :=
  if t.content.isEmpty then none else some (setStyle style t)

theorem encodeOneH_spec (style : Nat) (t : Node) (h : Heap) (f : Forest h [t]) :
    ∃ h', Ends (fun k => encodeOneH style k t.hd.addr) h (.ok (givenToEncoder style t)) h' ∧ InPlace h h' t.addrs := by
  have hg := Forest.get f
  have hc : (h.get t.hd.addr).content.isEmpty = t.content.isEmpty := by
    rw [hg]; cases t.content <;> rfl
  unfold givenToEncoder
  by_cases he : t.content.isEmpty = true
  · rw [if_pos he]
    refine ⟨h, ⟨0, fun k _ => ?_⟩, InPlace.refl _ _⟩
    dsimp only
    unfold encodeOneH
    simp only [Bind.bind, HM.bind, rd]
    rw [hc, if_pos he]
    rfl
  · rw [if_neg he]
    obtain ⟨h', e, i, g⟩ := setStyleH_spec style t h f
    have haddr : (setStyle style t).hd.addr = t.hd.addr := by
      have := setStyle_addrs style t
      generalize setStyle style t = x at this
      cases x; cases t
      rw [addrs_mk, addrs_mk] at this
      exact (List.cons.inj this).1
    have r := readH_spec (setStyle style t) g.stored.1
    rw [haddr] at r
    refine ⟨h', ?_, i⟩
    have : Ends (fun k => setStyleH style k t.hd.addr >>= fun _ => readH k t.hd.addr >>= fun x => pure (some x)) h
        (.ok (some (setStyle style t))) h' := Ends.bind e (Ends.bind r (Ends.const rfl))
    obtain ⟨K, hK⟩ := this
    refine ⟨K, fun k hk => ?_⟩
    rw [← hK k hk]
    dsimp only
    unfold encodeOneH
    simp only [Bind.bind, HM.bind, rd]
    rw [hc, if_neg he]
    rfl

theorem encodes_spec (style : Nat) (ts : List Node) : ∀ h : Heap, Forest h ts →
    ∃ h', Ends (fun k => mapH (encodeOneH style k) (ts.map (fun t => t.hd.addr))) h (.ok (ts.map (givenToEncoder style))) h' := by
  induction ts with
  | nil => exact fun h _ => ⟨h, Ends.const rfl⟩
  | cons t ts ih =>
    intro h f
    rw [forest_cons] at f
    obtain ⟨f1, f2, f3⟩ := f
    obtain ⟨h1, e1, i1⟩ := encodeOneH_spec style t h f1
    obtain ⟨h2, e2⟩ := ih h1 (f2.frame i1.untouched (fun a ha hb => f3 a hb ha))
    refine ⟨h2, ?_⟩
    have : Ends (fun k => encodeOneH style k t.hd.addr >>= fun x => mapH (encodeOneH style k) (ts.map (fun c => c.hd.addr)) >>= fun xs =>
        pure (x :: xs)) h (.ok (givenToEncoder style t :: ts.map (givenToEncoder style))) h2 :=
      Ends.bind e1 (Ends.bind e2 (Ends.const rfl))
    exact this

theorem setStyle_copyOf (s : Nat) (t : Node) : copyOf (setStyle s t) = setStyle s (copyOf t) := by
  induction t using Node.ind with
  | h hd cs ih =>
    rw [← fresh_eq_copyOf, ← fresh_eq_copyOf]
    have ih' : ∀ t ∈ cs, (setStyle s t).fresh = setStyle s t.fresh := by
      intro t ht
      rw [fresh_eq_copyOf, fresh_eq_copyOf]; exact ih t ht
    cases hk : hd.kind <;>
      simp only [setStyle, Node.fresh, hk, setStyles_eq_map'] <;>
      first
      | rfl
      | (congr 1
         simp only [freshs_eq_map, List.map_map]
         exact List.map_congr_left ih')

theorem given_copyOf (s : Nat) (t : Node) : (givenToEncoder s t).map copyOf = (givenToEncoder s (copyOf t)) := by
  have : (copyOf t).content.isEmpty = t.content.isEmpty := by
    rw [← fresh_eq_copyOf]
    cases t with | mk hd cs => cases cs <;> rfl
  unfold givenToEncoder
  rw [this]
  split_ifs
  · rfl
  · rw [Option.map_some, setStyle_copyOf]

/-- One file in memory, from its documents to the encoder: it ends as on trees (values
merged without alias nodes), and the encoder is given the documents the trees give. -/
theorem C53_file (E : Sed) (dflt : Str) (style : Nat) (h : Heap) (docs vals : List Node) (js : List Job) (f : Forest h (docs ++ vals))
    (hv : ∀ j ∈ js, j.overlay.value ∈ vals ∧ WellFormed j.overlay.value ∧ SearchOk j.overlay)
    (hs : ∀ j ∈ js, j.overlay.action = .delete ∨ j.overlay.action = .replace ∨ j.overlay.action = .combine ∨
      AllNodes (fun hd => hd.kind ≠ .document ∧ hd.kind ≠ .alias) j.overlay.value) :
    ∃ r h', Ends (fun k => fileH E dflt style k (docs.map (fun t => t.hd.addr)) (js.map Job.inMemory)) h r h' ∧
      (match handleJobs E dflt docs js with
       | .ok ds => ∃ ts, r = .ok ts ∧ ts.map (Option.map copyOf) = ds.map (fun d => (givenToEncoder style d).map copyOf)
       | .err e => r = .err e
       | .panic => r = .panic) := by
  obtain ⟨r, h1, e1, hr⟩ := C53_jobs_outcome E dflt h docs vals js f hv hs
  cases hj : handleJobs E dflt docs js with
  | ok ds =>
    rw [hj] at hr
    subst hr
    obtain ⟨docs', ds', d1, d2, d3, d4⟩ := C53_jobs E dflt h h1 docs vals js f hv e1
    rw [hj] at d3
    cases d3
    obtain ⟨h2, e2⟩ := encodes_spec style docs' h1 d1
    rw [d2] at e2
    refine ⟨.ok (docs'.map (givenToEncoder style)), h2, Ends.bind e1 e2, _, rfl, ?_⟩
    rw [List.map_map]
    have : ∀ l : List Node, l.map (Option.map copyOf ∘ givenToEncoder style) = (l.map copyOf).map (givenToEncoder style) := by
      intro l
      rw [List.map_map]
      exact List.map_congr_left fun t _ => given_copyOf style t
    rw [this, d4, ← this]
    rfl
  | err x =>
    rw [hj] at hr
    subst hr
    obtain ⟨K, hK⟩ := e1
    refine ⟨.err x, h1, ⟨K, fun k hk => ?_⟩, rfl⟩
    have hk' : handleJobsH E dflt k (docs.map (fun t => t.hd.addr)) (js.map Job.inMemory) h = _ := hK k hk
    show HM.bind (handleJobsH E dflt k _ _) _ h = _
    unfold HM.bind
    rw [hk']
  | panic =>
    rw [hj] at hr
    subst hr
    obtain ⟨K, hK⟩ := e1
    refine ⟨.panic, h1, ⟨K, fun k hk => ?_⟩, rfl⟩
    have hk' : handleJobsH E dflt k (docs.map (fun t => t.hd.addr)) (js.map Job.inMemory) h = _ := hK k hk
    show HM.bind (handleJobsH E dflt k _ _) _ h = _
    unfold HM.bind
    rw [hk']

end Yot
