import Verif.Spec.Pipeline
import Verif.Props.Files
import Verif.Props.Dirs
import Verif.Props.Order
/-
Lemmas for the whole of `GetInstructions`.
-/
namespace Yot
open Spec

/-- Path and overlays of an entry. -/
def pov (e : Entry Slice Slice) : Str × Slice := (e.path, e.overlays)
/-- Path and documents of an entry. -/
def pdc (e : Entry Slice Slice) : Str × Slice := (e.path, e.documents)
/-- The rest of an entry. -/
def skel (b : Bool) (e : Entry Slice Slice) : YamlFile :=
  { name := e.name, nodes := if b then e.nodes else [], path := e.path, outputPath := e.outputPath }

theorem absorbS_ov (grow : Nat → Nat → Nat) (ov dc : Mem Nat) (y : Entry Slice Slice) (done : List (Entry Slice Slice)) :
    ((absorbS grow ov dc y done).ov, (absorbS grow ov dc y done).files.map pov) =
      absorbM grow ov y.path (ov.read y.overlays) (done.map pov) := by
  induction done with
  | nil => rfl
  | cons d ds ih =>
    simp only [absorbS, absorbM, List.map_cons]
    by_cases h : d.path = y.path
    · simp [pov, h]
    · rw [if_neg h, if_neg (by simpa [pov] using h), ← ih]
      rfl

theorem absorbS_dc (grow : Nat → Nat → Nat) (ov dc : Mem Nat) (y : Entry Slice Slice) (done : List (Entry Slice Slice)) :
    ((absorbS grow ov dc y done).dc, (absorbS grow ov dc y done).files.map pdc) =
      absorbM grow dc y.path (dc.read y.documents) (done.map pdc) := by
  induction done with
  | nil => rfl
  | cons d ds ih =>
    simp only [absorbS, absorbM, List.map_cons]
    by_cases h : d.path = y.path
    · simp [pdc, h]
    · rw [if_neg h, if_neg (by simpa [pdc] using h), ← ih]
      rfl

theorem absorbS_paths (grow : Nat → Nat → Nat) (ov dc : Mem Nat) (y : Entry Slice Slice) (done : List (Entry Slice Slice)) :
    (absorbS grow ov dc y done).files.map (·.path) = done.map (·.path) := by
  induction done with
  | nil => rfl
  | cons d ds ih =>
    simp only [absorbS, List.map_cons]
    by_cases h : d.path = y.path
    · simp [h]
    · rw [if_neg h]; simp [ih]

theorem absorbS_skel (b : Bool) (grow : Nat → Nat → Nat) (ov dc : Mem Nat) (y : Entry Slice Slice)
    (done : List (Entry Slice Slice)) (hn : (done.map (·.path)).Nodup) :
    (absorbS grow ov dc y done).files.map (skel b) =
      (done.map (skel b)).map (fun d => if d.path = y.path then d.absorb (skel b y) else d) := by
  induction done with
  | nil => rfl
  | cons d ds ih =>
    simp only [List.map_cons, List.nodup_cons] at hn
    simp only [absorbS, List.map_cons]
    by_cases h : d.path = y.path
    · have hs : (skel b d).path = y.path := h
      simp only [if_pos h, if_pos hs, List.map_cons]
      congr 1
      rw [List.map_map]
      symm
      apply List.map_congr_left
      intro x hx
      simp only [Function.comp]
      rw [if_neg]
      intro e
      exact hn.1 (List.mem_map.2 ⟨x, hx, by rw [h]; simpa [skel] using e⟩)
    · rw [if_neg h, if_neg (by simpa [skel] using h)]
      simp only [List.map_cons, ih hn.2]

theorem any_pov (done : List (Entry Slice Slice)) (p : Str) :
    ((done.map pov).any (fun d => d.1 = p)) = done.any (fun d => d.path = p) := by
  rw [List.any_map]; rfl

theorem any_pdc (done : List (Entry Slice Slice)) (p : Str) :
    ((done.map pdc).any (fun d => d.1 = p)) = done.any (fun d => d.path = p) := by
  rw [List.any_map]; rfl

theorem any_skel (b : Bool) (done : List (Entry Slice Slice)) (p : Str) :
    ((done.map (skel b)).any (fun d => d.path = p)) = done.any (fun d => d.path = p) := by
  rw [List.any_map]; rfl

theorem mergeDupS_ov (grow : Nat → Nat → Nat) (ys : List (Entry Slice Slice)) :
    ∀ (ov dc : Mem Nat) (done : List (Entry Slice Slice)),
    ((mergeDupS grow ov dc done ys).ov, (mergeDupS grow ov dc done ys).files.map pov) =
      mergeDupM grow ov (done.map pov) (ys.map pov) := by
  induction ys with
  | nil => intro ov dc done; rfl
  | cons y ys ih =>
    intro ov dc done
    simp only [mergeDupS, mergeDupM, List.map_cons]
    rw [show (pov y).1 = y.path from rfl, any_pov]
    split
    · rw [ih, show (pov y).2 = y.overlays from rfl, ← absorbS_ov grow ov dc y done]
    · rw [ih, List.map_append]; rfl

theorem mergeDupS_dc (grow : Nat → Nat → Nat) (ys : List (Entry Slice Slice)) :
    ∀ (ov dc : Mem Nat) (done : List (Entry Slice Slice)),
    ((mergeDupS grow ov dc done ys).dc, (mergeDupS grow ov dc done ys).files.map pdc) =
      mergeDupM grow dc (done.map pdc) (ys.map pdc) := by
  induction ys with
  | nil => intro ov dc done; rfl
  | cons y ys ih =>
    intro ov dc done
    simp only [mergeDupS, mergeDupM, List.map_cons]
    rw [show (pdc y).1 = y.path from rfl, any_pdc]
    split
    · rw [ih, show (pdc y).2 = y.documents from rfl, ← absorbS_dc grow ov dc y done]
    · rw [ih, List.map_append]; rfl

theorem mergeDupS_skel (b : Bool) (grow : Nat → Nat → Nat) (ys : List (Entry Slice Slice)) :
    ∀ (ov dc : Mem Nat) (done : List (Entry Slice Slice)), (done.map (·.path)).Nodup →
    (mergeDupS grow ov dc done ys).files.map (skel b) = (ys.map (skel b)).foldl mergeDupStep (done.map (skel b)) := by
  induction ys with
  | nil => intro ov dc done _; rfl
  | cons y ys ih =>
    intro ov dc done hn
    simp only [mergeDupS, List.map_cons, List.foldl_cons]
    rw [mergeDupStep, show (skel b y).path = y.path from rfl, any_skel]
    split
    · rw [ih _ _ _ (by rw [absorbS_paths]; exact hn), absorbS_skel b grow ov dc y done hn]
    · rename_i h
      rw [ih _ _ _ ?_, List.map_append]; · rfl
      rw [List.map_append, List.nodup_append]
      refine ⟨hn, by simp, ?_⟩
      intro a ha c hc
      simp only [List.map_cons, List.map_nil, List.mem_singleton] at hc
      subst hc
      rintro rfl
      apply h
      obtain ⟨d, hd, e⟩ := List.mem_map.1 ha
      exact List.any_eq_true.2 ⟨d, hd, by simpa using e⟩

/-- Distinct entries pass unchanged. -/
theorem mergeDupM_distinct {α : Type} (grow : Nat → Nat → Nat) (A B : List (Str × Slice)) : ∀ (m : Mem α) (done : List (Str × Slice)),
    ((done ++ A).map Prod.fst).Nodup → mergeDupM grow m done (A ++ B) = mergeDupM grow m (done ++ A) B := by
  induction A with
  | nil => intro m done _; simp
  | cons a A ih =>
    intro m done hn
    rw [List.cons_append, mergeDupM]
    have : (done.any fun d => d.1 = a.1) = false := by
      rw [List.any_eq_false]
      intro d hd
      simp only [decide_eq_true_eq]
      intro e
      rw [List.map_append, List.nodup_append] at hn
      exact hn.2.2 d.1 (List.mem_map_of_mem hd) a.1 (by simp) e
    rw [this, if_neg (by simp), ih m (done ++ [a]) (by simpa using hn)]
    simp

theorem mergeDupM_append {α : Type} (grow : Nat → Nat → Nat) (A B : List (Str × Slice)) : ∀ (m : Mem α) (done : List (Str × Slice)),
    mergeDupM grow m done (A ++ B) =
      mergeDupM grow (mergeDupM grow m done A).1 (mergeDupM grow m done A).2 B := by
  induction A with
  | nil => intro m done; rfl
  | cons a A ih =>
    intro m done
    rw [List.cons_append, mergeDupM]
    conv_rhs => rw [mergeDupM]
    split
    · exact ih _ _
    · exact ih _ _

/-- Merging twice is merging once. -/
theorem mergeDupM_twice {α : Type} (grow : Nat → Nat → Nat) (A B : List (Str × Slice)) (m : Mem α)
    (hn : ((mergeDupM grow m [] A).2.map Prod.fst).Nodup) :
    mergeDupM grow (mergeDupM grow m [] A).1 [] ((mergeDupM grow m [] A).2 ++ B) = mergeDupM grow m [] (A ++ B) := by
  rw [mergeDupM_distinct grow _ _ _ [] (by simpa using hn), mergeDupM_append]
  simp

theorem addCommonS_eq (grow : Nat → Nat → Nat) (c : Slice) (ys : List (Entry Slice Slice)) : ∀ m : Mem Nat,
    (addCommonS grow c m ys).1 = (addCommonM grow c m (ys.map (·.overlays))).1 ∧
    (addCommonS grow c m ys).2.map (·.overlays) = (addCommonM grow c m (ys.map (·.overlays))).2 ∧
    (addCommonS grow c m ys).2.map pdc = ys.map pdc ∧
    (addCommonS grow c m ys).2.map (skel true) = ys.map (skel true) := by
  induction ys with
  | nil => intro m; exact ⟨rfl, rfl, rfl, rfl⟩
  | cons y ys ih =>
    intro m
    simp only [addCommonS, addCommonM, List.map_cons]
    obtain ⟨h1, h2, h3, h4⟩ := ih (m.append grow c (m.read y.overlays)).1
    exact ⟨h1, by rw [h2], by rw [h3]; rfl, by rw [h4]; rfl⟩

theorem readAll_eq {O D : Type} (read : Str → Option (List Node)) (ys : List (Entry O D)) :
    readAll read ys = if ∀ y ∈ ys, (read y.path).isSome then
      some (ys.map (fun y => { y with nodes := y.nodes ++ (read y.path).getD [] })) else none := by
  induction ys with
  | nil => simp [readAll]
  | cons y ys ih =>
    rw [readAll, ih]
    cases h : read y.path with
    | none => simp [h]
    | some ns =>
      by_cases h2 : ∀ z ∈ ys, (read z.path).isSome
      · rw [if_pos h2, if_pos (by simpa [h] using h2)]; simp [h]
      · rw [if_neg h2, if_neg (by simpa [h] using h2)]

theorem mergeDupS_distinct (grow : Nat → Nat → Nat) (ys : List (Entry Slice Slice)) : ∀ (ov dc : Mem Nat) (done : List (Entry Slice Slice)),
    ((done ++ ys).map (·.path)).Nodup → mergeDupS grow ov dc done ys = ⟨ov, dc, done ++ ys⟩ := by
  induction ys with
  | nil => intro ov dc done _; simp [mergeDupS]
  | cons a A ih =>
    intro ov dc done hn
    rw [mergeDupS]
    have : (done.any fun d => d.path = a.path) = false := by
      rw [List.any_eq_false]
      intro d hd
      simp only [decide_eq_true_eq]
      intro e
      rw [List.map_append, List.nodup_append] at hn
      exact hn.2.2 d.path (List.mem_map.2 ⟨d, hd, rfl⟩) a.path (by simp) e
    rw [this, if_neg (by simp), ih ov dc (done ++ [a]) (by simpa using hn)]
    simp

theorem mergeDuplicates_distinct (ys : List YamlFile) (h : (ys.map (·.path)).Nodup) : mergeDuplicates ys = ys := by
  induction ys using snocInduction with
  | h0 => rfl
  | h1 ys y ih =>
    rw [List.map_append, List.nodup_append] at h
    rw [mergeDuplicates_concat, ih h.1, mergeDupStep, if_neg]
    simp only [List.any_eq_true, decide_eq_true_eq, not_exists, not_and]
    intro d hd e
    exact h.2.2 d.path (List.mem_map.2 ⟨d, hd, rfl⟩) y.path (by simp) e

theorem mergeDuplicates_twice (xs ys : List YamlFile) : mergeDuplicates (mergeDuplicates xs ++ ys) = mergeDuplicates (xs ++ ys) := by
  unfold mergeDuplicates
  rw [List.foldl_append, List.foldl_append]
  congr 1
  exact mergeDuplicates_distinct _ (by
    have := C35_paths xs
    unfold mergeDuplicates at this
    rw [this]; exact firsts_nodup _)

theorem expand_map {O D O' D' : Type} (fs : Fs) (dir : Str) (f : Entry O D → Entry O' D') (hp : ∀ e, (f e).path = e.path)
    (hl : ∀ e, f (located dir e) = located dir (f e)) (hf : ∀ y p, f (y.forFile p) = (f y).forFile p) (ys : List (Entry O D)) :
    (expand fs dir ys).map f = expand fs dir (ys.map f) := by
  have hd : ∀ y, IsDirEntry fs dir (f y) ↔ IsDirEntry fs dir y := by intro y; unfold IsDirEntry; rw [hp]
  unfold expand
  rw [List.map_append, List.filter_map, List.filter_map, List.map_map, List.map_map, List.map_flatMap, List.flatMap_map]
  congr 1
  · rw [show ((fun y => decide ¬IsDirEntry fs dir y) ∘ f) = (fun y => decide ¬IsDirEntry fs dir y) from by
      funext y; simp [hd]]
    apply List.map_congr_left
    intro e _
    exact hl e
  · rw [show ((fun y => decide (IsDirEntry fs dir y)) ∘ f) = (fun y => decide (IsDirEntry fs dir y)) from by
      funext y; simp [hd]]
    apply flatMap_congr'
    intro y _
    rw [List.map_map, hp]
    apply List.map_congr_left
    intro p _
    exact hf y p

theorem mem_expand {O D : Type} (fs : Fs) (dir : Str) (ys : List (Entry O D)) (e : Entry O D) (h : e ∈ expand fs dir ys) :
    ∃ y ∈ ys, e.overlays = y.overlays ∧ e.documents = y.documents ∧ (e.nodes = y.nodes ∨ e.nodes = []) := by
  unfold expand at h
  rcases List.mem_append.1 h with h | h
  · obtain ⟨y, hy, rfl⟩ := List.mem_map.1 h
    refine ⟨y, (List.mem_filter.1 hy).1, ?_⟩
    unfold located
    split <;> simp
  · obtain ⟨y, hy, h⟩ := List.mem_flatMap.1 h
    obtain ⟨p, _, rfl⟩ := List.mem_map.1 h
    exact ⟨y, (List.mem_filter.1 hy).1, rfl, rfl, .inr rfl⟩

/-- The entry of the command line, before it is read. -/
def adHocS (P : Setup) : List (Entry Slice Slice) := if P.adHocPath = [] then [] else [P.adHocEntry]

/-- All entries, on slices. -/
def listedS (P : Setup) : List (Entry Slice Slice) := expand P.fs P.dir P.instr.entries ++ expand P.fs P.dir (adHocS P)

theorem read_nil {α : Type} (m : Mem α) : m.read nilSlice = [] := rfl

theorem listed_eq (P : Setup) : listed P = (listedS P).map (Entry.read P.instr.ov P.instr.dc P.docObj) := by
  have hl : ∀ e, Entry.read P.instr.ov P.instr.dc P.docObj (located P.dir e) =
      located P.dir (Entry.read P.instr.ov P.instr.dc P.docObj e) := by
    intro e
    unfold located
    by_cases h : e.path = ['-']
    · rw [if_pos h, if_pos (show (Entry.read _ _ _ e).path = _ from h)]
    · rw [if_neg h, if_neg (show ¬ (Entry.read _ _ _ e).path = _ from h)]; rfl
  unfold listed listedS
  rw [List.map_append, expand_map _ _ (Entry.read P.instr.ov P.instr.dc P.docObj) (fun _ => rfl) hl (fun _ _ => rfl),
    expand_map _ _ (Entry.read P.instr.ov P.instr.dc P.docObj) (fun _ => rfl) hl (fun _ _ => rfl)]
  congr 2
  unfold adHocGiven adHocS
  split <;> rfl

theorem acceptable_read (P : Setup) (ov dc : Mem Nat) (docObj : Nat → Option DocObj) (e : Entry Slice Slice) :
    Acceptable P.fs P.dir (Entry.read ov dc docObj e) ↔ Acceptable P.fs P.dir e := Iff.rfl

theorem documentsOf_map {O D O' D' : Type} (read1 read2 : Str → Option (List Node)) (f : Entry O D → Entry O' D')
    (hp : ∀ e, (f e).path = e.path) (hn : ∀ e, (f e).nodes = e.nodes) (ys : List (Entry O D)) (p : Str) :
    documentsOf read1 read2 (ys.map f) p = documentsOf read1 read2 ys p := by
  unfold documentsOf entriesFor
  rw [List.filter_map, List.head?_map]
  have : ((fun y : Entry O' D' => decide (y.path = p)) ∘ f) = fun y => decide (y.path = p) := by
    funext y; simp [hp]
  rw [this]
  cases (ys.filter (fun y => decide (y.path = p))).head? with
  | none => rfl
  | some e => simp [hn]

theorem expand_read (P : Setup) (es : List (Entry Slice Slice)) (ov dc : Mem Nat) (docObj : Nat → Option DocObj) :
    (expand P.fs P.dir es).map (Entry.read ov dc docObj) = expand P.fs P.dir (es.map (Entry.read ov dc docObj)) := by
  have hl : ∀ e, Entry.read ov dc docObj (located P.dir e) = located P.dir (Entry.read ov dc docObj e) := by
    intro e
    unfold located
    by_cases h : e.path = ['-']
    · rw [if_pos h, if_pos (show (Entry.read _ _ _ e).path = _ from h)]
    · rw [if_neg h, if_neg (show ¬ (Entry.read _ _ _ e).path = _ from h)]; rfl
  exact expand_map _ _ (Entry.read ov dc docObj) (fun _ => rfl) hl (fun _ _ => rfl) es

theorem expandedPaths (P : Setup) (es : List (Entry Slice Slice)) (ov dc : Mem Nat) (docObj : Nat → Option DocObj) :
    (expand P.fs P.dir (es.map (Entry.read ov dc docObj))).map (·.path) = (expand P.fs P.dir es).map (·.path) := by
  have hl : ∀ e, Entry.read ov dc docObj (located P.dir e) = located P.dir (Entry.read ov dc docObj e) := by
    intro e
    unfold located
    by_cases h : e.path = ['-']
    · rw [if_pos h, if_pos (show (Entry.read _ _ _ e).path = _ from h)]
    · rw [if_neg h, if_neg (show ¬ (Entry.read _ _ _ e).path = _ from h)]; rfl
  rw [← expand_map _ _ (Entry.read ov dc docObj) (fun _ => rfl) hl (fun _ _ => rfl), List.map_map]
  rfl

/-- Listing the files of entries depends on their paths and outputPaths only. -/
theorem below_map {O D O' D' : Type} (fs : Fs) (dir : Str) (f : Entry O D → Entry O' D') (hp : ∀ e, (f e).path = e.path)
    (ys : List (Entry O D)) : below fs dir (ys.map f) = below fs dir ys := by
  unfold below
  rw [List.filter_map, List.flatMap_map]
  have h1 : ((fun y : Entry O' D' => decide (IsDirEntry fs dir y)) ∘ f) = fun y => decide (IsDirEntry fs dir y) := by
    funext y
    apply decide_eq_decide.2
    simp only [IsDirEntry, hp]
  rw [h1]
  simp only [hp]

theorem refused_map {O D O' D' : Type} (fs : Fs) (dir : Str) (f : Entry O D → Entry O' D') (hp : ∀ e, (f e).path = e.path)
    (ho : ∀ e, (f e).outputPath = e.outputPath) (ys : List (Entry O D)) : Refused fs dir (ys.map f) ↔ Refused fs dir ys := by
  unfold Refused
  rw [below_map fs dir f hp]
  simp only [List.mem_map, exists_exists_and_eq_and, Acceptable, hp, ho]

theorem linkedDir_map {O D O' D' : Type} (fs : Fs) (dir : Str) (f : Entry O D → Entry O' D') (hp : ∀ e, (f e).path = e.path)
    (ys : List (Entry O D)) : LinkedDir fs dir (ys.map f) ↔ LinkedDir fs dir ys := by
  unfold LinkedDir
  rw [below_map fs dir f hp]

theorem expand_paths {O D : Type} (fs : Fs) (dir : Str) (ys : List (Entry O D)) : (expand fs dir ys).map (·.path) =
    (ys.filter (fun y => ¬ IsDirEntry fs dir y)).map (fun y => if y.path = ['-'] then y.path else resolvePath dir y.path) ++
    below fs dir ys := by
  unfold expand below
  rw [List.map_append, List.map_map, List.map_flatMap]
  congr 1
  · apply List.map_congr_left
    intro y _
    simp only [Function.comp_apply, located]
    split <;> rfl
  · congr 1
    funext y
    rw [List.map_map]
    exact List.map_id _

theorem expand_paths_map {O D O' D' : Type} (fs : Fs) (dir : Str) (f : Entry O D → Entry O' D') (hp : ∀ e, (f e).path = e.path)
    (ys : List (Entry O D)) : (expand fs dir (ys.map f)).map (·.path) = (expand fs dir ys).map (·.path) := by
  rw [expand_paths, expand_paths, below_map fs dir f hp, List.filter_map, List.map_map]
  congr 1
  have h1 : ((fun y : Entry O' D' => decide (¬ IsDirEntry fs dir y)) ∘ f) = fun y => decide (¬ IsDirEntry fs dir y) := by
    funext y
    apply decide_eq_decide.2
    simp only [IsDirEntry, hp]
  rw [h1]
  apply List.map_congr_left
  intro y _
  simp [hp]

theorem read_paths {O D : Type} (read : Str → Option (List Node)) (ys : List (Entry O D)) :
    (∀ y ∈ ys, (read y.path).isSome) ↔ ∀ p ∈ ys.map (·.path), (read p).isSome := by
  rw [List.forall_mem_map]

theorem filesRead_map {O D O' D' : Type} (fs : Fs) (dir : Str) (read : Str → Option (List Node)) (f : Entry O D → Entry O' D')
    (hp : ∀ e, (f e).path = e.path) (ho : ∀ e, (f e).outputPath = e.outputPath) (ys : List (Entry O D)) :
    FilesRead fs dir read (ys.map f) ↔ FilesRead fs dir read ys := by
  unfold FilesRead
  rw [refused_map fs dir f hp ho, linkedDir_map fs dir f hp, read_paths, expand_paths_map fs dir f hp, ← read_paths]

theorem endless_map {O D O' D' : Type} (fs : Fs) (dir : Str) (f : Entry O D → Entry O' D')
    (hp : ∀ e, (f e).path = e.path) (ho : ∀ e, (f e).outputPath = e.outputPath) (ys : List (Entry O D)) :
    Endless fs dir (ys.map f) ↔ Endless fs dir ys := by
  unfold Endless
  rw [refused_map fs dir f hp ho, linkedDir_map fs dir f hp]

end Yot
