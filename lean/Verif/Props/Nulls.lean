import Verif.Props.Decode
import Verif.Model.File
/-
C63: null items in the lists of an instructions file.
-/
namespace Yot
open Spec Ex

/-! ### Without nulls, the earlier model -/

theorem checkConditionsN_plain (q : DocumentQuery) (n : Node) : checkConditionsN (q.map some) n = some (checkQuery q n) := by
  induction q with
  | nil => rfl
  | cons c q ih =>
    rw [List.map_cons, checkConditionsN]
    unfold checkQuery at ih ⊢
    rw [List.all_cons]
    cases checkCondition c n
    · rfl
    · simpa using ih

theorem checkQueriesN_plain (qs : List DocumentQuery) (n : Node) :
    checkQueriesN (qs.map (fun q => some (q.map some))) n = some (checkQueries qs n) := by
  have key : checkSomeN (qs.map (fun q => some (q.map some))) n = some (qs.any (fun q => checkQuery q n)) := by
    induction qs with
    | nil => rfl
    | cons q qs ih =>
      rw [List.map_cons, checkSomeN, checkConditionsN_plain, List.any_cons]
      cases checkQuery q n
      · simpa using ih
      · rfl
  unfold checkQueriesN checkQueries
  rw [key]
  cases qs <;> rfl

/-- **C63** An overlay without null items is applied as the plain overlay is. -/
theorem C63_plain_overlay_partial (d : DOverlay) (o : Overlay) (h : Plain d o) (E : Sed) (dflt : Str) (doc : Node) :
    d.apply E dflt doc = Yot.apply E dflt o doc := by
  obtain ⟨h0, qs, h1, rfl⟩ := h
  unfold DOverlay.apply
  rw [h1, checkQueriesN_plain, show d.usesNilPath E dflt doc = false by simp [DOverlay.usesNilPath, h0]]
  unfold Yot.apply
  dsimp only
  rw [show checkQueries [] doc = true from rfl]
  cases checkQueries qs doc <;> rfl

theorem plain_index {d : DOverlay} {o : Overlay} (h : Plain d o) (i : Int) :
    d.base.checkDocumentIndex i = o.checkDocumentIndex i := by
  obtain ⟨_, qs, _, rfl⟩ := h
  rfl

/-- **C63** For an entry without null items the overlays queued for each document are
those of the plain entry, in the same order. -/
theorem C63_plain_queue_partial (f : DFile) (y : YamlFile) (h : PlainFile f y) (i : Nat) :
    ∃ ds, f.queue i = some ds ∧ List.Forall₂ Plain ds ((y.docJobs i).map Job.overlay) := by
  have h1 : ∀ (l : List (Option DOverlay)) (os : List Overlay),
      List.Forall₂ (fun od o => ∃ d, od = some d ∧ Plain d o) l os →
      ∃ ds, queueN i l = some ds ∧ List.Forall₂ Plain ds (os.filter (fun o => o.checkDocumentIndex i)) := by
    intro l os hf
    induction hf with
    | nil => exact ⟨[], rfl, .nil⟩
    | @cons od o l os hd hf ih =>
      obtain ⟨d, rfl, hp⟩ := hd
      obtain ⟨ds, e, hds⟩ := ih
      rw [queueN, e]
      rw [List.filter_cons, ← plain_index hp]
      cases d.base.checkDocumentIndex i
      · exact ⟨ds, rfl, hds⟩
      · exact ⟨d :: ds, rfl, .cons hp hds⟩
  have h2 : ∀ (l : List (Option DOverlay)) (os : List Overlay),
      List.Forall₂ (fun od o => ∃ d, od = some d ∧ Plain d o) l os →
      ∃ ds, queueDocN l = some ds ∧ List.Forall₂ Plain ds os := by
    intro l os hf
    induction hf with
    | nil => exact ⟨[], rfl, .nil⟩
    | @cons od o l os hd hf ih =>
      obtain ⟨d, rfl, hp⟩ := hd
      obtain ⟨ds, e, hds⟩ := ih
      rw [queueDocN, e]
      exact ⟨d :: ds, rfl, .cons hp hds⟩
  obtain ⟨ds1, e1, p1⟩ := h1 _ _ h.1
  have h3 : ∃ ds, queueDocsN i f.documents = some ds ∧
      List.Forall₂ Plain ds (y.documents.flatMap (fun d => if d.checkDocumentIndex i then d.overlays else [])) := by
    obtain ⟨_, hd⟩ := h
    generalize f.documents = l at hd
    generalize y.documents = m at hd
    induction hd with
    | nil => exact ⟨[], rfl, .nil⟩
    | @cons od d' l m hd hf ih =>
      obtain ⟨d, rfl, hp, hov⟩ := hd
      obtain ⟨ds, e, hds⟩ := ih
      obtain ⟨es, e2, hes⟩ := h2 _ _ hov
      rw [queueDocsN, e, e2, List.flatMap_cons]
      unfold Document.checkDocumentIndex at hds ⊢
      rw [hp]
      by_cases hc : d'.path = (i : Int)
      · simp only [hc, if_true, decide_true]
        exact ⟨es ++ ds, rfl, List.rel_append hes hds⟩
      · simp only [hc, if_false, decide_false, Bool.false_eq_true]
        exact ⟨ds, rfl, hds⟩
  obtain ⟨ds2, e2, p2⟩ := h3
  refine ⟨ds1 ++ ds2, by rw [DFile.queue, e1, e2], ?_⟩
  have : (y.docJobs i).map Job.overlay = y.overlays.filter (fun o => o.checkDocumentIndex i) ++
      y.documents.flatMap (fun d => if d.checkDocumentIndex i then d.overlays else []) := by
    unfold YamlFile.docJobs
    rw [List.map_append, List.map_map, List.map_flatMap]
    congr 1
    · simp [Function.comp_def]
    · congr 1
      funext d
      split <;> simp [Function.comp_def]
  rw [this]
  exact List.rel_append p1 p2

/-- **C63** Without null entries under `yamlFiles`, directories are expanded as in the
plain list. -/
theorem C63_plain_files_partial (fs : Fs) (dir : Str) (fuel : Nat) : ∀ done es : List DFile,
    expandLoopN fs dir fuel done (es.map some) =
      match expandLoop fs dir fuel done es with
      | .done ys => .done ys
      | .err => .err
      | .running => .running := by
  induction fuel with
  | zero => intro done es; cases es <;> rfl
  | succ fuel ih =>
    intro done es
    cases es with
    | nil => rfl
    | cons y ys =>
      rw [List.map_cons, expandLoopN, expandLoop]
      split
      · exact ih _ _
      · dsimp only
        cases isDirectory fs (resolvePath dir y.path) with
        | none => rfl
        | some b =>
          cases b with
          | false => exact ih _ _
          | true =>
            dsimp only
            split
            · rfl
            · rw [← ih, List.map_append, List.map_map]
              rfl

/-! ### With nulls -/

/-- **C63** (The code crashes here.) A null under `yamlFiles`: the run never gets past
reading the instructions. -/
theorem C63_null_file (fs : Fs) (dir : Str) (fuel : Nat) : ∀ (done : List DFile) (es : List (Option DFile)),
    none ∈ es → ∀ ys, expandLoopN fs dir fuel done es ≠ .done ys := by
  induction fuel with
  | zero => intro done es h ys; cases es with
    | nil => simp at h
    | cons a es => simp [expandLoopN]
  | succ fuel ih =>
    intro done es h ys
    cases es with
    | nil => simp at h
    | cons a es =>
      cases a with
      | none => simp [expandLoopN]
      | some y =>
        have h' : none ∈ es := by simpa using h
        rw [expandLoopN]
        split
        · exact ih _ _ h' ys
        · dsimp only
          split
          · simp
          · exact ih _ _ h' ys
          · split
            · simp
            · exact ih _ _ (by simp [h']) ys

/-- The entry can be processed: it exists, and if it is a directory its `outputPath`
is none of a file. -/
def Processable (fs : Fs) (dir : Str) (y : DFile) : Prop :=
  y.path = ['-'] ∨ isDirectory fs (resolvePath dir y.path) = some false ∨
  (isDirectory fs (resolvePath dir y.path) = some true ∧ extOf y.outputPath = [])

instance (fs : Fs) (dir : Str) (y : DFile) : Decidable (Processable fs dir y) := by unfold Processable; infer_instance

/-- **C63** It crashes exactly when the entries before the null can be processed (if
not, their error is reported). -/
theorem C63_null_file_crashes (fs : Fs) (dir : Str) (es : List DFile) : ∀ (done : List DFile) (rest : List (Option DFile)) (fuel : Nat),
    es.length < fuel →
    (expandLoopN fs dir fuel done (es.map some ++ none :: rest) = .panic ↔ ∀ y ∈ es, Processable fs dir y) ∧
    (expandLoopN fs dir fuel done (es.map some ++ none :: rest) = .err ↔ ∃ y ∈ es, ¬ Processable fs dir y) := by
  induction es with
  | nil =>
    intro done rest fuel hf
    cases fuel with
    | zero => simp at hf
    | succ fuel => simp [expandLoopN]
  | cons y es ih =>
    intro done rest fuel hf
    cases fuel with
    | zero => simp at hf
    | succ fuel =>
      have hf' : es.length < fuel := by simpa using hf
      rw [List.map_cons, List.cons_append, expandLoopN]
      simp only [List.mem_cons, forall_eq_or_imp, exists_eq_or_imp]
      by_cases h1 : y.path = ['-']
      · rw [if_pos h1]
        have : Processable fs dir y := .inl h1
        simp only [this, true_and, not_true_eq_false, false_or]
        exact ih _ _ _ hf'
      · rw [if_neg h1]
        cases h2 : isDirectory fs (resolvePath dir y.path) with
        | none =>
          have : ¬ Processable fs dir y := by simp [Processable, h1, h2]
          simp [this]
        | some b =>
          cases b with
          | false =>
            have : Processable fs dir y := .inr (.inl h2)
            simp only [this, true_and, not_true_eq_false, false_or]
            exact ih _ _ _ hf'
          | true =>
            by_cases h3 : extOf y.outputPath = []
            · have : Processable fs dir y := .inr (.inr ⟨h2, h3⟩)
              simp only [this, true_and, not_true_eq_false, false_or, h3, ne_eq, if_false]
              rw [List.append_assoc, List.cons_append]
              exact ih _ _ _ hf'
            · have : ¬ Processable fs dir y := by simp [Processable, h1, h2, h3]
              simp [this, h3]

example : expandLoopN (fun _ => none) c!"/w" 2 [] [some { path := ['-'] }, none] = .panic := rfl

/-- **C63** (The code crashes here.) Queueing the overlays for a document crashes exactly
when there is a null among the overlays of the file, among its `documents`, or among
the overlays of an entry there that is for this document. -/
theorem C63_null_overlay_crashes (f : DFile) (i : Nat) :
    f.queue i = none ↔ none ∈ f.overlays ∨ none ∈ f.documents ∨
      ∃ d, some d ∈ f.documents ∧ d.path = (i : Int) ∧ none ∈ d.overlays := by
  have h1 : ∀ l : List (Option DOverlay), queueN i l = none ↔ none ∈ l := by
    intro l
    induction l with
    | nil => simp [queueN]
    | cons a l ih =>
      cases a with
      | none => simp [queueN]
      | some o =>
        rw [queueN]
        simp only [List.mem_cons, reduceCtorEq, false_or, ← ih]
        cases queueN i l <;> simp
  have h2 : ∀ l : List (Option DOverlay), queueDocN l = none ↔ none ∈ l := by
    intro l
    induction l with
    | nil => simp [queueDocN]
    | cons a l ih =>
      cases a with
      | none => simp [queueDocN]
      | some o =>
        rw [queueDocN]
        simp only [List.mem_cons, reduceCtorEq, false_or, ← ih]
        cases queueDocN l <;> simp
  have h3 : ∀ l : List (Option DDocument), queueDocsN i l = none ↔ none ∈ l ∨
      ∃ d, some d ∈ l ∧ d.path = (i : Int) ∧ none ∈ d.overlays := by
    intro l
    induction l with
    | nil => simp [queueDocsN]
    | cons a l ih =>
      cases a with
      | none => simp [queueDocsN]
      | some d =>
        rw [queueDocsN]
        have e : (∃ d', some d' ∈ some d :: l ∧ d'.path = (i : Int) ∧ none ∈ d'.overlays) ↔
            (d.path = (i : Int) ∧ none ∈ d.overlays) ∨ ∃ d', some d' ∈ l ∧ d'.path = (i : Int) ∧ none ∈ d'.overlays := by
          simp only [List.mem_cons, Option.some.injEq, or_and_right, exists_or, exists_eq_left]
        rw [e]
        simp only [List.mem_cons, reduceCtorEq, false_or]
        by_cases hp : d.path = (i : Int)
        · simp only [hp, if_true, true_and, ← h2 d.overlays]
          rw [or_left_comm, ← ih]
          cases queueDocN d.overlays <;> cases queueDocsN i l <;> simp
        · simp only [hp, if_false, false_and, false_or]
          exact ih
  unfold DFile.queue
  rw [← h3, ← h1]
  cases queueN i f.overlays <;> cases queueDocsN i f.documents <;> simp

example : DFile.queue { overlays := [some { base := { name := c!"a" } }, none] } 0 = none := rfl

theorem checkConditionsN_cases (doc : Node) (q : List (Option Condition)) :
    (checkConditionsN q doc = none ↔ MeetsNull doc q) ∧ (checkConditionsN q doc = some false ↔ Refuses doc q) := by
  induction q with
  | nil =>
    unfold MeetsNull Refuses
    simp [checkConditionsN]
  | cons a q ih =>
    cases a with
    | none =>
      refine ⟨?_, ?_⟩
      · simp only [checkConditionsN, true_iff]
        exact ⟨[], q, rfl, by simp⟩
      · simp only [checkConditionsN, reduceCtorEq, false_iff]
        rintro ⟨held, c, rest, h, _⟩
        cases held <;> simp at h
    | some c =>
      rw [checkConditionsN]
      by_cases hc : checkCondition c doc = true
      · rw [if_pos hc, ih.1, ih.2]
        constructor
        · constructor
          · rintro ⟨held, rest, rfl, h⟩
            exact ⟨c :: held, rest, rfl, by simpa [hc] using h⟩
          · rintro ⟨held, rest, h1, h2⟩
            cases held with
            | nil => simp at h1
            | cons x held =>
              simp only [List.map_cons, List.cons_append, List.cons.injEq, Option.some.injEq] at h1
              exact ⟨held, rest, h1.2, fun y hy => h2 y (by simp [hy])⟩
        · constructor
          · rintro ⟨held, c', rest, rfl, h, h'⟩
            exact ⟨c :: held, c', rest, rfl, by simpa [hc] using h, h'⟩
          · rintro ⟨held, c', rest, h1, h2, h3⟩
            cases held with
            | nil =>
              simp only [List.map_nil, List.nil_append, List.cons.injEq, Option.some.injEq] at h1
              rw [← h1.1, hc] at h3; cases h3
            | cons x held =>
              simp only [List.map_cons, List.cons_append, List.cons.injEq, Option.some.injEq] at h1
              exact ⟨held, c', rest, h1.2, fun y hy => h2 y (by simp [hy]), h3⟩
      · rw [if_neg hc]
        simp only [Bool.not_eq_true] at hc
        constructor
        · simp only [reduceCtorEq, false_iff]
          rintro ⟨held, rest, h1, h2⟩
          cases held with
          | nil => simp at h1
          | cons x held =>
            simp only [List.map_cons, List.cons_append, List.cons.injEq, Option.some.injEq] at h1
            have := h2 x (by simp)
            rw [← h1.1, hc] at this; cases this
        · simp only [true_iff]
          exact ⟨[], c, q, rfl, by simp, hc⟩

/-- **C63** (The code crashes here.) Checking the document queries of an overlay crashes
exactly when, after queries that do not hold, there is a null query or one in which a
null condition is met. -/
theorem C63_null_condition_crashes (d : DOverlay) (doc : Node) :
    checkQueriesN d.queries doc = none ↔
      ∃ (before : List (List (Option Condition))) (x : Option (List (Option Condition)))
        (rest : List (Option (List (Option Condition)))),
        d.queries = before.map some ++ x :: rest ∧ (∀ q ∈ before, Refuses doc q) ∧
        (x = none ∨ ∃ q, x = some q ∧ MeetsNull doc q) := by
  have key : ∀ qs : List (Option (List (Option Condition))), checkSomeN qs doc = none ↔
      ∃ (before : List (List (Option Condition))) (x : Option (List (Option Condition)))
        (rest : List (Option (List (Option Condition)))),
        qs = before.map some ++ x :: rest ∧ (∀ q ∈ before, Refuses doc q) ∧
        (x = none ∨ ∃ q, x = some q ∧ MeetsNull doc q) := by
    intro qs
    induction qs with
    | nil => simp [checkSomeN]
    | cons a qs ih =>
      cases a with
      | none =>
        simp only [checkSomeN, true_iff]
        exact ⟨[], none, qs, rfl, by simp, .inl rfl⟩
      | some q =>
        obtain ⟨hN, hR⟩ := checkConditionsN_cases doc q
        rw [checkSomeN]
        cases hc : checkConditionsN q doc with
        | none =>
          simp only [true_iff]
          exact ⟨[], some q, qs, rfl, by simp, .inr ⟨q, rfl, hN.1 hc⟩⟩
        | some b =>
          have nr : ∀ {before x rest}, some q :: qs = List.map some before ++ x :: rest →
              (x = none ∨ ∃ q, x = some q ∧ MeetsNull doc q) → ∃ b', before = q :: b' ∧ qs = List.map some b' ++ x :: rest := by
            intro before x rest h1 h2
            cases before with
            | nil =>
              simp only [List.map_nil, List.nil_append, List.cons.injEq] at h1
              rcases h2 with h2 | ⟨q', h2, h3⟩
              · rw [← h1.1] at h2; cases h2
              · rw [← h1.1, Option.some.injEq] at h2
                rw [hN.2 (h2 ▸ h3)] at hc
                cases hc
            | cons y b' =>
              simp only [List.map_cons, List.cons_append, List.cons.injEq, Option.some.injEq] at h1
              exact ⟨b', by rw [h1.1], h1.2⟩
          cases b with
          | true =>
            simp only [reduceCtorEq, false_iff]
            rintro ⟨before, x, rest, h1, h2, h3⟩
            obtain ⟨b', rfl, _⟩ := nr h1 h3
            have := hR.2 (h2 q (by simp))
            rw [hc] at this; cases this
          | false =>
            dsimp only
            rw [ih]
            constructor
            · rintro ⟨before, x, rest, rfl, h2, h3⟩
              refine ⟨q :: before, x, rest, rfl, ?_, h3⟩
              simp only [List.mem_cons, forall_eq_or_imp]
              exact ⟨hR.1 hc, h2⟩
            · rintro ⟨before, x, rest, h1, h2, h3⟩
              obtain ⟨b', rfl, h4⟩ := nr h1 h3
              exact ⟨b', x, rest, h4, fun y hy => h2 y (by simp [hy]), h3⟩
  unfold checkQueriesN
  cases hq : d.queries with
  | nil => simp
  | cons a qs =>
    simp only [List.isEmpty_cons, Bool.false_eq_true, if_false]
    exact key _

/-- **C63** (The code crashes here.) And then applying the overlay does. -/
theorem C63_null_condition_apply (d : DOverlay) (E : Sed) (dflt : Str) (doc : Node) (h : checkQueriesN d.queries doc = none) :
    d.apply E dflt doc = .panic := by
  unfold DOverlay.apply
  rw [h]

example : DOverlay.apply noSed [] { queries := [some [none]] } (dc (sc c!"x")) = .panic := rfl

/-- **C63** Nulls do get that far: such items are read as they are written. -/
theorem C63_nulls_are_read (D : Dec) (s : Node) (os : List (Option DOverlay)) (h : decodeOverlays D s = .val (some os)) :
    (none ∈ os ↔ ∃ c ∈ s.content, Null c) ∧ os.length = s.content.length := by
  obtain ⟨_, _, hf⟩ := ((decodeOverlays_decodes D).val s os).1 h
  have hg := List.forall₂_iff_get.1 hf
  refine ⟨?_, hg.1.symm⟩
  constructor
  · intro hm
    obtain ⟨m, hm, hmc⟩ := List.getElem_of_mem hm
    have := hg.2 m (by rw [hg.1]; exact hm) hm
    simp only [List.get_eq_getElem, hmc, and_true, reduceCtorEq, and_false, exists_false, or_false] at this
    exact ⟨_, List.getElem_mem _, this⟩
  · rintro ⟨c, hc, hn⟩
    obtain ⟨m, hm, hmc⟩ := List.getElem_of_mem hc
    have := hg.2 m hm (by rw [← hg.1]; exact hm)
    simp only [List.get_eq_getElem, hmc, hn, true_and, not_true_eq_false, false_and, or_false] at this
    rw [← this]
    exact List.getElem_mem _

/-- An instructions file with a null among the common overlays. -/
example : ∃ i, decodeInstructions exDec (some (dc (mp [sc c!"commonOverlays", sq [nul]]))) = some i ∧ i.common = [none] :=
  ⟨_, rfl, rfl⟩

end Yot
