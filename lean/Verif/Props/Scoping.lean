import Verif.Spec.Scoping
import Verif.Props.Pipeline
/-
C97: an overlay may be scoped in several ways that amount to the same.
-/
namespace Yot
open Spec Ex

/-- The overlay without its documentIndex, which the worker does not look at. -/
def unscoped (o : Overlay) : Overlay := { o with documentIndex := none }

theorem applyJob_unscoped (E : Sed) (dflt : Str) (o : Overlay) (d : Node) : applyJob E dflt (unscoped o) d = applyJob E dflt o d := rfl

theorem applyAll_unscoped (E : Sed) (dflt : Str) (os : List Overlay) (d : Node) :
    applyAll E dflt (os.map unscoped) d = applyAll E dflt os d := by
  induction os generalizing d with
  | nil => rfl
  | cons o os ih =>
    simp only [List.map_cons, applyAll, applyJob_unscoped]
    congr 1
    funext d'
    exact ih d'

theorem runFile_congr (E : Sed) (dflt : Str) (y z : YamlFile) (hn : z.nodes = y.nodes)
    (h : ∀ i, i < y.nodes.length → (Spec.overlaysFor z i).map unscoped = (Spec.overlaysFor y i).map unscoped) :
    runFile E dflt z = runFile E dflt y := by
  rw [runFile_eq, runFile_eq, hn]
  have key : ∀ (ds : List Node) (k : Nat), k + ds.length = y.nodes.length → docByDoc E dflt z k ds = docByDoc E dflt y k ds := by
    intro ds
    induction ds with
    | nil => intro k _; rfl
    | cons d ds ih =>
      intro k hk
      rw [List.length_cons] at hk
      simp only [docByDoc]
      rw [ih (k + 1) (by omega), ← applyAll_unscoped, h k (by omega), applyAll_unscoped]
  exact key y.nodes 0 (by omega)

theorem selects_on (o : Overlay) (is : List Int) (i : Nat) : Selects (Overlay.on o is) i ↔ (i : Int) ∈ is := by
  unfold Selects Overlay.on
  constructor
  · intro h; exact h is rfl
  · rintro h _ ⟨⟩; exact h

theorem overlaysFor_unscoped (y : YamlFile) (i : Nat) : (Spec.overlaysFor y i).map unscoped =
    (y.overlays.flatMap fun o => if Selects o i then [unscoped o] else []) ++
    (y.documents.flatMap fun d => if d.path = (i : Int) then d.overlays.map unscoped else []) := by
  unfold Spec.overlaysFor
  rw [List.map_append]
  congr 1
  · induction y.overlays with
    | nil => rfl
    | cons o os ih => by_cases h : Selects o i <;> simp [h, ih]
  · induction y.documents with
    | nil => rfl
    | cons d ds ih => by_cases h : d.path = (i : Int) <;> simp [h, ih]

/-- C97: listing overlays under `documents` is the same as listing them at the end of the
file's overlays with a documentIndex: the outcome, be it documents, an error or a crash, is
the same.  (Whatever documentIndex an overlay under `documents` has is ignored.) -/
theorem C97_by_index (E : Sed) (dflt : Str) (yf : YamlFile) : runFile E dflt (byIndex yf) = runFile E dflt yf := by
  refine runFile_congr E dflt yf (byIndex yf) rfl fun i _ => ?_
  rw [overlaysFor_unscoped, overlaysFor_unscoped]
  simp only [byIndex, List.flatMap_append, List.flatMap_nil, List.append_nil]
  congr 1
  rw [List.flatMap_assoc]
  congr 1
  funext d
  rw [List.flatMap_map]
  by_cases h : d.path = (i : Int)
  · rw [if_pos h]
    induction d.overlays with
    | nil => rfl
    | cons o os ih =>
      rw [List.flatMap_cons, if_pos ((selects_on o _ i).2 (by simp [h])), ih]
      rfl
  · rw [if_neg h]
    induction d.overlays with
    | nil => rfl
    | cons o os ih =>
      rw [List.flatMap_cons, if_neg (fun hc => h (List.mem_singleton.1 ((selects_on o _ i).1 hc)).symm), ih]
      rfl

theorem flatMap_range_if {α : Type} (n i : Nat) (xs : List α) (hi : i < n) :
    (List.range n).flatMap (fun k : Nat => if (k : Int) = (i : Int) then xs else []) = xs := by
  induction n with
  | zero => omega
  | succ n ih =>
    rw [List.range_succ, List.flatMap_append]
    by_cases h : i = n
    · subst h
      have : (List.range i).flatMap (fun k : Nat => if (k : Int) = (i : Int) then xs else []) = [] := by
        rw [List.flatMap_eq_nil_iff]
        intro k hk
        rw [List.mem_range] at hk
        rw [if_neg (by omega)]
      rw [this]; simp
    · rw [ih (by omega)]
      simp [show ¬ (n : Int) = (i : Int) by omega]

theorem flatMap_filter_if {α β : Type} (xs : List α) (p : α → Prop) [DecidablePred p] (f : α → List β) :
    (xs.filter (fun x => decide (p x))).flatMap f = xs.flatMap fun x => if p x then f x else [] := by
  induction xs with
  | nil => rfl
  | cons x xs ih => by_cases h : p x <;> simp [h, ih]

/-- C97: conversely, all of a file's overlays may be listed under `documents`. -/
theorem C97_by_document (E : Sed) (dflt : Str) (yf : YamlFile) : runFile E dflt (byDocument yf) = runFile E dflt yf := by
  refine runFile_congr E dflt yf (byDocument yf) rfl fun i hi => ?_
  rw [overlaysFor_unscoped, overlaysFor_unscoped]
  simp only [byDocument, List.flatMap_append, List.flatMap_nil, List.nil_append]
  congr 1
  rw [List.flatMap_assoc]
  congr 1
  funext o
  rw [List.flatMap_map]
  by_cases h : Selects o i
  · rw [if_pos h, flatMap_filter_if]
    rw [← flatMap_range_if yf.nodes.length i [unscoped o] hi]
    congr 1
    funext k
    by_cases hk : (k : Int) = (i : Int)
    · have : k = i := by omega
      subst this
      simp [h]
    · simp [hk]
  · rw [if_neg h, List.flatMap_eq_nil_iff]
    intro k hk
    rw [List.mem_filter, decide_eq_true_eq] at hk
    rw [if_neg]
    intro hc
    have : k = i := by have : (k : Int) = (i : Int) := hc; omega
    exact h (this ▸ hk.2)

theorem overlaysFor_replace (E : Sed) (dflt : Str) (yf : YamlFile) (pre post xs ys : List Overlay) (ho : yf.overlays = pre ++ xs ++ post)
    (h : ∀ i, i < yf.nodes.length → (xs.filter (fun o => decide (Selects o i))).map unscoped = (ys.filter (fun o => decide (Selects o i))).map unscoped) :
    runFile E dflt { yf with overlays := pre ++ ys ++ post } = runFile E dflt yf := by
  refine runFile_congr E dflt yf _ rfl fun i hi => ?_
  unfold Spec.overlaysFor
  simp only [ho, List.filter_append, List.map_append, h i hi]

/-- C97: a documentIndex is a set: order and repetitions do not matter, and neither do
indices of documents that the file does not have. -/
theorem C97_index_set (E : Sed) (dflt : Str) (yf : YamlFile) (pre post : List Overlay) (o : Overlay) (is js : List Int)
    (ho : yf.overlays = pre ++ [Overlay.on o is] ++ post)
    (h : ∀ i, i < yf.nodes.length → ((i : Int) ∈ is ↔ (i : Int) ∈ js)) :
    runFile E dflt { yf with overlays := pre ++ [Overlay.on o js] ++ post } = runFile E dflt yf := by
  refine overlaysFor_replace E dflt yf pre post _ _ ho fun i hi => ?_
  by_cases hi' : (i : Int) ∈ is
  · simp [selects_on, hi', (h i hi).1 hi']; rfl
  · simp [selects_on, hi', mt (h i hi).2 hi']

/-- C97: without a documentIndex an overlay is for all documents of the file: the same as
with one that lists them all. -/
theorem C97_no_index (E : Sed) (dflt : Str) (yf : YamlFile) (pre post : List Overlay) (o : Overlay) (js : List Int)
    (ho : yf.overlays = pre ++ [o] ++ post) (hn : o.documentIndex = none)
    (h : ∀ i, i < yf.nodes.length → (i : Int) ∈ js) :
    runFile E dflt { yf with overlays := pre ++ [Overlay.on o js] ++ post } = runFile E dflt yf := by
  refine overlaysFor_replace E dflt yf pre post _ _ ho fun i hi => ?_
  have : Selects o i := by intro is his; rw [hn] at his; cases his
  simp [selects_on, this, h i hi]
  rfl

/-- C97: an overlay for several documents may be written as two overlays that divide the
documents between them. -/
theorem C97_split (E : Sed) (dflt : Str) (yf : YamlFile) (pre post : List Overlay) (o : Overlay) (is js : List Int)
    (ho : yf.overlays = pre ++ [Overlay.on o (is ++ js)] ++ post) (hd : ∀ i ∈ is, i ∉ js) :
    runFile E dflt { yf with overlays := pre ++ [Overlay.on o is, Overlay.on o js] ++ post } = runFile E dflt yf := by
  refine overlaysFor_replace E dflt yf pre post _ _ ho fun i hi => ?_
  by_cases h1 : (i : Int) ∈ is
  · simp [selects_on, h1, hd _ h1]; rfl
  · by_cases h2 : (i : Int) ∈ js
    · simp [selects_on, h1, h2]; rfl
    · simp [selects_on, h1, h2]

/-! Common overlays -/

theorem entriesFor_before (os : List Nat) (p : Str) (es : List Written) :
    entriesFor p (es.map (Written.before os)) = (entriesFor p es).map (Written.before os) := by
  unfold entriesFor
  rw [List.filter_map]
  rfl

theorem located_before (os : List Nat) (dir : Str) (e : Written) : Written.before os (located dir e) = located dir (Written.before os e) := by
  unfold located
  by_cases h : e.path = ['-']
  · rw [if_pos h, if_pos (show (Written.before os e).path = _ from h)]
  · rw [if_neg h, if_neg (show ¬ (Written.before os e).path = _ from h)]; rfl

theorem listed_before (P Q : Setup) (h : CommonMoved P Q) : listed Q = (listed P).map (Written.before (Spec.common P)) := by
  unfold listed adHocGiven
  rw [if_pos h.adHocPath.1, if_pos h.adHocPath.2, h.given, h.fs, h.dir]
  rw [← expand_map P.fs P.dir (Written.before (Spec.common P)) (fun _ => rfl) (fun e => located_before _ _ e) (fun _ _ => rfl)]
  simp [expand]

theorem received_zero {α : Type} (owns : List (List α)) (own : List α) : received 0 owns own = own := by
  unfold received
  by_cases h : own.length ≤ 0
  · rw [if_pos h, List.eq_nil_of_length_eq_zero (by omega : own.length = 0)]; rfl
  · rw [if_neg h]

/-- C97: common overlays may instead be written in front of the overlays of every entry,
provided each file is listed once and the command line adds nothing: the same files are
read and written under the same names, and each has the same outcome. -/
theorem C97_common (P Q : Setup) (h : CommonMoved P Q) (hn : ((listed P).map (·.path)).Nodup) :
    inputs Q = inputs P ∧
    ∀ p ∈ inputs P, nameFor Q p = nameFor P p ∧ contents Q p = contents P p ∧
      overlaysOn Q p = overlaysOn P p ∧ ∀ docs, FileResult Q p docs ↔ FileResult P p docs := by
  have hl := listed_before P Q h
  have hin : inputs Q = inputs P := by
    unfold inputs
    rw [hl, List.map_map]
    rfl
  refine ⟨hin, fun p hp => ?_⟩
  have hone : ∃ e, entriesFor p (listed P) = [e] := by
    have hm : p ∈ (listed P).map (·.path) := (firsts_mem _ _).1 hp
    revert hn hm
    generalize listed P = L
    intro hn hm
    induction L with
    | nil => simp at hm
    | cons e L ih =>
      rw [List.map_cons, List.nodup_cons] at hn
      unfold entriesFor at ih ⊢
      by_cases he : e.path = p
      · refine ⟨e, ?_⟩
        rw [List.filter_cons_of_pos (by simp [he]), List.filter_eq_nil_iff.2]
        intro x hx hc
        simp only [decide_eq_true_eq] at hc
        exact hn.1 (he ▸ hc ▸ List.mem_map.2 ⟨x, hx, rfl⟩)
      · rw [List.filter_cons_of_neg (by simp [he])]
        refine ih hn.2 ?_
        rw [List.map_cons, List.mem_cons] at hm
        rcases hm with hm | hm
        · exact absurd hm.symm he
        · exact hm
  obtain ⟨e, he⟩ := hone
  have heQ : entriesFor p (listed Q) = [Written.before (Spec.common P) e] := by
    rw [hl, entriesFor_before, he]; rfl
  have hsp : ∀ R : Setup, R.adHoc = none → spare R = 0 := by
    intro R hR; unfold spare; rw [hR]; rfl
  have hc : contents Q p = contents P p := by
    have hex : expand Q.fs Q.dir (given Q) = (expand P.fs P.dir (given P)).map (Written.before (Spec.common P)) := by
      rw [h.given, h.fs, h.dir, ← expand_map P.fs P.dir (Written.before (Spec.common P)) (fun _ => rfl) (fun e => located_before _ _ e) (fun _ _ => rfl)]
    unfold contents
    rw [hex, h.read1, h.read2, h.removeComments]
    unfold documentsOf
    rw [entriesFor_before, List.head?_map]
    cases (entriesFor p (expand P.fs P.dir (given P))).head? <;> rfl
  have ho : overlaysOn Q p = overlaysOn P p := by
    funext i
    unfold overlaysOn gets
    rw [hsp P h.adHoc.1, hsp Q h.adHoc.2, received_zero, received_zero, h.none, h.obj]
    unfold own ownDocs
    rw [he, heQ]
    simp [Written.before]
  refine ⟨?_, hc, ho, fun docs => ?_⟩
  · unfold nameFor givenOutput
    rw [he, heQ, hin, h.outDir]
    rfl
  · unfold FileResult
    rw [hc, ho, h.sed, h.dflt]

/-! A file with two documents, an overlay for one of them listed under `documents`. -/

example : (byIndex twoDocs).documents = [] ∧ (byIndex twoDocs).overlays.map (·.documentIndex) = [some [1], none, some [0]] ∧
    (byDocument twoDocs).overlays.length = 0 ∧ (byDocument twoDocs).documents.map (·.path) = [1, 0, 1, 0] := by decide
example : ((match runFile noSed [] (byIndex twoDocs) with | .ok ds => ds.map Node.fresh | _ => [])
    = [dc (mp [sc c!"k", sc c!"xBC"]), dc (mp [sc c!"k", sc c!"yAB"])]) := by decide

/-- One file with an overlay `B`, and a common overlay `A`; or both for the file. -/
def Ex.withCommon (moved : Bool) : Setup where
  sed := noSed
  dflt := []
  emit := fun _ _ => .ok []
  style := []
  outDir := []
  writeFails := fun _ _ => false
  fs := fun p => if p = c!"/a.yaml" then some .file else none
  dir := []
  read1 := fun _ => some [dc (mp [sc c!"k", sc c!"x"])]
  read2 := fun _ => none
  grow := fun _ n => n
  obj := fun i => if i = 0 then some { base := appendText c!"A" } else some { base := appendText c!"B" }
  docObj := fun _ => none
  instr := { ov := ⟨2, fun a i => if a = 0 then [0, 1][i]? else [1][i]?⟩, dc := ⟨0, fun _ _ => none⟩
             common := if moved then nilSlice else ⟨0, 1, 1⟩
             entries := [{ path := c!"/a.yaml", overlays := if moved then ⟨0, 2, 2⟩ else ⟨1, 1, 1⟩, documents := nilSlice }] }
  adHocPath := []
  adHoc := none
  removeComments := false

example : CommonMoved (withCommon false) (withCommon true) where
  given := rfl
  none := rfl
  sed := rfl
  dflt := rfl
  outDir := rfl
  fs := rfl
  dir := rfl
  read1 := rfl
  read2 := rfl
  obj := rfl
  adHoc := ⟨rfl, rfl⟩
  adHocPath := ⟨rfl, rfl⟩
  removeComments := rfl

example : (listed (withCommon false)).map (·.path) = [c!"/a.yaml"] ∧ Spec.common (withCommon false) = [0] ∧
    own (withCommon false) c!"/a.yaml" = [1] ∧ own (withCommon true) c!"/a.yaml" = [0, 1] := by decide +kernel

/-- C97: when a file is listed twice, what is written in front of both entries is applied
twice, a common overlay once. -/
theorem C97_listed_twice : ∃ P Q : Setup, ∃ p, CommonMoved P Q ∧ p ∈ inputs P ∧
    Spec.common P ++ own P p = [0, 1, 1] ∧ Spec.common Q ++ own Q p = [0, 1, 0, 1] := by
  refine ⟨{ withCommon false with instr := { (withCommon false).instr with
      entries := (withCommon false).instr.entries ++ (withCommon false).instr.entries } },
    { withCommon true with instr := { (withCommon true).instr with
      entries := (withCommon true).instr.entries ++ (withCommon true).instr.entries } }, c!"/a.yaml",
    ⟨rfl, rfl, rfl, rfl, rfl, rfl, rfl, rfl, rfl, rfl, ⟨rfl, rfl⟩, ⟨rfl, rfl⟩, rfl⟩, ?_, ?_, ?_⟩ <;> decide +kernel

end Yot
