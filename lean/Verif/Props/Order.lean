import Verif.Spec.Order
import Verif.Spec.Build
import Verif.Lemmas.Tac
/-
C21-C23: which overlays reach which document, in which order, independently of
the other documents.
-/
namespace Yot
open Spec Ex

theorem checkDocumentIndex_iff (o : Overlay) (i : Nat) : o.checkDocumentIndex i = decide (Selects o i) := by
  rw [Bool.eq_iff_iff, decide_eq_true_eq]
  unfold Overlay.checkDocumentIndex Selects
  cases h : o.documentIndex with
  | none => simp
  | some is => simp

theorem docJobs_eq (yf : YamlFile) (i : Nat) : yf.docJobs i = (overlaysFor yf i).map (Job.mk i) := by
  unfold YamlFile.docJobs overlaysFor
  rw [List.map_append, List.map_flatMap]
  congr 1
  · congr 1
    simp only [checkDocumentIndex_iff]
  · induction yf.documents with
    | nil => rfl
    | cons d ds ih =>
      rw [List.flatMap_cons, ih]
      by_cases h : d.path = (i : Int)
      · simp [Document.checkDocumentIndex, h]
      · simp [Document.checkDocumentIndex, h]

theorem handleJobs_append (E : Sed) (dflt : Str) (docs : List Node) (a b : List Job) :
    handleJobs E dflt docs (a ++ b) = handleJobs E dflt docs a >>= fun d => handleJobs E dflt d b := by
  unfold handleJobs
  rw [List.foldlM_append]

theorem handle_doc (E : Sed) (dflt : Str) (pre post : List Node) (d : Node) (os : List Overlay) :
    handleJobs E dflt (pre ++ d :: post) (os.map (Job.mk pre.length)) =
      applyAll E dflt os d >>= fun d' => .ok (pre ++ d' :: post) := by
  induction os generalizing d with
  | nil => rfl
  | cons o os ih =>
    unfold handleJobs at ih ⊢
    rw [List.map_cons, List.foldlM_cons]
    unfold handleJob
    simp only [List.getElem?_append_right (Nat.le_refl _), Nat.sub_self, List.getElem?_cons_zero]
    unfold applyAll
    cases applyJob E dflt o d with
    | err => rfl
    | panic => rfl
    | ok d1 =>
      simp only [Res.bind_ok, List.set_append_right _ _ (Nat.le_refl _), Nat.sub_self, List.set_cons_zero]
      exact ih d1

/-- The documents of a file, each processed by its own overlays in turn. -/
def docByDoc (E : Sed) (dflt : Str) (yf : YamlFile) : Nat → List Node → Res Err (List Node)
  | _, [] => .ok []
  | i, d :: ds =>
    applyAll E dflt (overlaysFor yf i) d >>= fun d' =>
    docByDoc E dflt yf (i + 1) ds >>= fun ds' => .ok (d' :: ds')

theorem handle_from (E : Sed) (dflt : Str) (yf : YamlFile) (pre ds : List Node) :
    handleJobs E dflt (pre ++ ds) (yf.jobsFrom pre.length ds) =
      docByDoc E dflt yf pre.length ds >>= fun ds' => .ok (pre ++ ds') := by
  induction ds generalizing pre with
  | nil => simp [YamlFile.jobsFrom, docByDoc, handleJobs]
  | cons d ds ih =>
    rw [YamlFile.jobsFrom, handleJobs_append, docJobs_eq, handle_doc, docByDoc]
    cases applyAll E dflt (overlaysFor yf pre.length) d with
    | err => rfl
    | panic => rfl
    | ok d' =>
      simp only [Res.bind_ok]
      have := ih (pre ++ [d'])
      simp only [List.length_append, List.length_cons, List.length_nil, Nat.zero_add, List.append_assoc,
        List.cons_append, List.nil_append] at this
      rw [this]
      cases docByDoc E dflt yf (pre.length + 1) ds <;> simp

theorem runFile_eq (E : Sed) (dflt : Str) (yf : YamlFile) :
    runFile E dflt yf = docByDoc E dflt yf 0 yf.nodes := by
  have := handle_from E dflt yf [] yf.nodes
  unfold runFile YamlFile.jobs
  simp only [List.nil_append, List.length_nil] at this
  rw [this]
  cases docByDoc E dflt yf 0 yf.nodes <;> simp

theorem docByDoc_ok (E : Sed) (dflt : Str) (yf : YamlFile) (i : Nat) (ds ds' : List Node) :
    docByDoc E dflt yf i ds = .ok ds' ↔
      ds'.length = ds.length ∧
      ∀ k d, ds[k]? = some d → ∃ d', ds'[k]? = some d' ∧ applyAll E dflt (overlaysFor yf (i + k)) d = .ok d' := by
  induction ds generalizing i ds' with
  | nil =>
    simp only [docByDoc, Res.ok.injEq]
    constructor
    · rintro rfl; simp
    · rintro ⟨h, _⟩; exact (List.length_eq_zero_iff.1 h).symm
  | cons d ds ih =>
    simp only [docByDoc, Res.bind_eq_ok, Res.ok.injEq]
    constructor
    · rintro ⟨d', h1, ds1, h2, rfl⟩
      obtain ⟨hl, hk⟩ := (ih (i + 1) ds1).1 h2
      refine ⟨by simp [hl], ?_⟩
      intro k x hx
      cases k with
      | zero => simp only [List.getElem?_cons_zero, Option.some.injEq] at hx ⊢; subst hx; exact ⟨d', rfl, h1⟩
      | succ k =>
        simp only [List.getElem?_cons_succ] at hx ⊢
        obtain ⟨y, hy⟩ := hk k x hx
        exact ⟨y, hy.1, by rw [show i + (k + 1) = i + 1 + k by omega]; exact hy.2⟩
    · rintro ⟨hl, hk⟩
      cases ds' with
      | nil => simp at hl
      | cons d' ds1 =>
        obtain ⟨y, hy, h1⟩ := hk 0 d rfl
        simp only [List.getElem?_cons_zero, Option.some.injEq] at hy
        subst hy
        refine ⟨d', h1, ds1, (ih (i + 1) ds1).2 ⟨by simpa using hl, ?_⟩, rfl⟩
        intro k x hx
        obtain ⟨y, hy⟩ := hk (k + 1) x (by simpa using hx)
        exact ⟨y, by simpa using hy.1, by rw [show i + 1 + k = i + (k + 1) by omega]; exact hy.2⟩

/-! ### C21 -/

/-- C21: the jobs that reach document `i` are exactly those of the file's overlays
that have no documentIndex or list `i` in it, and those listed under `documents`
with path `i`. -/
theorem C21_selection (yf : YamlFile) (i : Nat) (o : Overlay) :
    (∃ j ∈ yf.jobs, j.index = i ∧ j.overlay = o) ↔
      i < yf.nodes.length ∧
      ((o ∈ yf.overlays ∧ (o.documentIndex = none ∨ ∃ is, o.documentIndex = some is ∧ (i : Int) ∈ is)) ∨
       ∃ d ∈ yf.documents, d.path = (i : Int) ∧ o ∈ d.overlays) := by
  have hj : ∀ (ns : List Node) (k : Nat) (j : Job), j ∈ yf.jobsFrom k ns ↔
      (k ≤ j.index ∧ j.index < k + ns.length) ∧ j ∈ yf.docJobs j.index := by
    intro ns
    induction ns with
    | nil => intro k j; simp [YamlFile.jobsFrom]; omega
    | cons n ns ih =>
      intro k j
      rw [YamlFile.jobsFrom, List.mem_append, ih, List.length_cons]
      constructor
      · rintro (h | ⟨h, h'⟩)
        · have : j.index = k := by
            rw [docJobs_eq, List.mem_map] at h
            obtain ⟨o, _, rfl⟩ := h
            rfl
          rw [this]
          exact ⟨by omega, h⟩
        · exact ⟨by omega, h'⟩
      · rintro ⟨h, h'⟩
        by_cases hk : j.index = k
        · exact .inl (hk ▸ h')
        · exact .inr ⟨by omega, h'⟩
  have hs : (∀ is, o.documentIndex = some is → (i : Int) ∈ is) ↔
      (o.documentIndex = none ∨ ∃ is, o.documentIndex = some is ∧ (i : Int) ∈ is) := by
    cases o.documentIndex <;> simp
  have hmem : o ∈ overlaysFor yf i ↔
      ((o ∈ yf.overlays ∧ (o.documentIndex = none ∨ ∃ is, o.documentIndex = some is ∧ (i : Int) ∈ is)) ∨
       ∃ d ∈ yf.documents, d.path = (i : Int) ∧ o ∈ d.overlays) := by
    unfold overlaysFor
    simp only [List.mem_append, List.mem_filter, decide_eq_true_eq, List.mem_flatMap, Selects, hs]
    constructor
    · rintro (h | ⟨d, ⟨h1, h2⟩, h3⟩)
      · exact .inl h
      · exact .inr ⟨d, h1, h2, h3⟩
    · rintro (h | ⟨d, h1, h2, h3⟩)
      · exact .inl h
      · exact .inr ⟨d, ⟨h1, h2⟩, h3⟩
  rw [← hmem]
  constructor
  · rintro ⟨j, hm, rfl, rfl⟩
    unfold YamlFile.jobs at hm
    rw [hj] at hm
    refine ⟨by omega, ?_⟩
    have := hm.2
    rw [docJobs_eq, List.mem_map] at this
    obtain ⟨o, ho, he⟩ := this
    rw [← he]
    exact ho
  · rintro ⟨hi, ho⟩
    refine ⟨⟨i, o⟩, ?_, rfl, rfl⟩
    unfold YamlFile.jobs
    rw [hj]
    refine ⟨by simp only; omega, ?_⟩
    rw [docJobs_eq]
    exact List.mem_map.2 ⟨o, ho, rfl⟩

/-- C21 in terms of the outcome: a document no overlay selects comes out as it
went in. -/
theorem C21_unselected_document_unchanged (E : Sed) (dflt : Str) (yf : YamlFile) (docs' : List Node)
    (h : runFile E dflt yf = .ok docs') (i : Nat)
    (hf : ∀ o ∈ yf.overlays, ∃ is, o.documentIndex = some is ∧ (i : Int) ∉ is)
    (hd : ∀ d ∈ yf.documents, d.path ≠ (i : Int)) :
    docs'[i]? = yf.nodes[i]? := by
  rw [runFile_eq, docByDoc_ok] at h
  have hnone : overlaysFor yf i = [] := by
    unfold overlaysFor
    rw [List.filter_eq_nil_iff.2, List.filter_eq_nil_iff.2]
    · rfl
    · intro d hdm; simpa using hd d hdm
    · intro o ho
      obtain ⟨is, h1, h2⟩ := hf o ho
      rw [decide_eq_true_eq]
      intro hc
      exact h2 (hc is h1)
  cases hn : yf.nodes[i]? with
  | none =>
    rw [List.getElem?_eq_none_iff] at hn ⊢
    omega
  | some d =>
    obtain ⟨d', h1, h2⟩ := h.2 i d hn
    rw [Nat.zero_add, hnone] at h2
    simp only [applyAll, Res.ok.injEq] at h2
    rw [h1, h2]

/-! ### C22 -/

/-- C22: when a file's overlays are the common ones followed by its own, a
successful run has applied to each document, one after the other and each to the
result of the previous one: the common overlays, the file's own overlays, the
overlays listed under `documents`; each list in the order written, those not
selecting the document left out. -/
theorem C22_order (E : Sed) (dflt : Str) (yf : YamlFile) (common own : List Overlay)
    (ho : yf.overlays = common ++ own) (docs' : List Node) :
    runFile E dflt yf = .ok docs' ↔
      docs'.length = yf.nodes.length ∧
      ∀ i d, yf.nodes[i]? = some d → ∃ d', docs'[i]? = some d' ∧
        applyAll E dflt
          (common.filter (fun o => decide (Selects o i)) ++
           own.filter (fun o => decide (Selects o i)) ++
           (yf.documents.filter (fun d => d.path = (i : Int))).flatMap (fun d => d.overlays)) d = .ok d' := by
  rw [runFile_eq, docByDoc_ok]
  simp only [Nat.zero_add, overlaysFor, ho, List.filter_append]

/-- C22: applying one list after another is applying the second to the result of
the first. -/
theorem C22_sequential (E : Sed) (dflt : Str) (a b : List Overlay) (d : Node) :
    applyAll E dflt (a ++ b) d = (applyAll E dflt a d >>= applyAll E dflt b) := by
  induction a generalizing d with
  | nil => rfl
  | cons o os ih =>
    simp only [List.cons_append, applyAll]
    cases applyJob E dflt o d with
    | ok d1 => exact ih d1
    | err => rfl
    | panic => rfl

/-! ### C23 -/

/-- C23: two files with the same overlays but different documents: where both have
the same document at the same index and both runs succeed, the outcome for that
document is the same. -/
theorem C23_documents_independent (E : Sed) (dflt : Str) (yf : YamlFile) (other : List Node)
    (r1 r2 : List Node) (h1 : runFile E dflt yf = .ok r1)
    (h2 : runFile E dflt { yf with nodes := other } = .ok r2)
    (i : Nat) (d : Node) (ha : yf.nodes[i]? = some d) (hb : other[i]? = some d) :
    r1[i]? = r2[i]? := by
  rw [runFile_eq, docByDoc_ok] at h1 h2
  obtain ⟨d1, e1, f1⟩ := h1.2 i d ha
  obtain ⟨d2, e2, f2⟩ := h2.2 i d hb
  have : overlaysFor { yf with nodes := other } (0 + i) = overlaysFor yf (0 + i) := rfl
  rw [this, f1] at f2
  simp only [Res.ok.injEq] at f2
  rw [e1, e2, f2]

/-- C23: the run of a file succeeds iff it would for each of its documents alone
(at its index). -/
theorem C23_succeeds_iff (E : Sed) (dflt : Str) (yf : YamlFile) :
    (∃ r, runFile E dflt yf = .ok r) ↔
      ∀ i d, yf.nodes[i]? = some d → ∃ d', applyAll E dflt (overlaysFor yf i) d = .ok d' := by
  rw [runFile_eq]
  have key : ∀ (ds : List Node) (k : Nat), (∃ r, docByDoc E dflt yf k ds = .ok r) ↔
      ∀ i d, ds[i]? = some d → ∃ d', applyAll E dflt (overlaysFor yf (k + i)) d = .ok d' := by
    intro ds
    induction ds with
    | nil => intro k; simp [docByDoc]
    | cons d ds ih =>
      intro k
      simp only [docByDoc, Res.bind_eq_ok, Res.ok.injEq]
      constructor
      · rintro ⟨r, d', h1, ds', h2, rfl⟩ i x hx
        cases i with
        | zero => simp only [List.getElem?_cons_zero, Option.some.injEq] at hx; subst hx; exact ⟨d', h1⟩
        | succ i =>
          rw [show k + (i + 1) = k + 1 + i by omega]
          exact (ih (k + 1)).1 ⟨ds', h2⟩ i x (by simpa using hx)
      · intro h
        obtain ⟨d', h1⟩ := h 0 d rfl
        obtain ⟨ds', h2⟩ := (ih (k + 1)).2 (fun i x hx => by
          rw [show k + 1 + i = k + (i + 1) by omega]
          exact h (i + 1) x (by simpa using hx))
        exact ⟨_, d', h1, ds', h2, rfl⟩
  simpa using key yf.nodes 0

/-! A file with two documents: one overlay for document 1 only, and one listed
under `documents` for document 0. -/

/-- A query matching the value of the first entry of the root mapping. -/
def Ex.firstValue : Query := ⟨c!"first", fun n => n.content.flatMap fun r => (r.content.drop 1).take 1⟩
/-- Append `s` to the first value. -/
def Ex.appendText (s : Str) (idx : Option (List Int) := none) : Overlay :=
  { query := [firstValue], value := sc s, action := .combine, documentIndex := idx }
/-- See above. -/
def Ex.twoDocs : YamlFile :=
  { overlays := [appendText c!"A" (some [1]), appendText c!"B"],
    documents := [{ path := 0, overlays := [appendText c!"C"] }],
    nodes := [dc (mp [sc c!"k", sc c!"x"]), dc (mp [sc c!"k", sc c!"y"])] }

example : ((match runFile noSed [] twoDocs with | .ok ds => ds.map Node.fresh | _ => [])
    = [dc (mp [sc c!"k", sc c!"xBC"]), dc (mp [sc c!"k", sc c!"yAB"])]) := by decide
example : Selects (appendText c!"A" (some [1])) 1 ∧ ¬ Selects (appendText c!"A" (some [1])) 0 := by decide

end Yot
