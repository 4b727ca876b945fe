import Verif.Spec.Inject
import Verif.Spec.Build
import Verif.Lemmas.Pipeline
import Verif.Lemmas.Nil
import Verif.Props.Execute
import Mathlib.Data.List.Nodup
/-
C55: from the configuration, the instructions and the files to the outputs.
-/
namespace Yot
open Spec

theorem merged_paths (grow : Nat → Nat → Nat) (ov dc : Mem Nat) (es : List (Entry Slice Slice)) :
    (mergeDupS grow ov dc [] es).files.map (·.path) = firsts (es.map (·.path)) := by
  have h1 := mergeDupS_skel false grow es ov dc [] (by simp)
  have h2 := congrArg (List.map (·.path)) h1
  rw [show (es.map (skel false)).foldl mergeDupStep (([] : List (Entry Slice Slice)).map (skel false)) = mergeDuplicates (es.map (skel false)) from rfl,
    C35_paths, List.map_map, List.map_map] at h2
  exact h2

/-- The entries after both `mergeDuplicates`. -/
structure Merged (P : Setup) (r : Lists) : Prop where
  ov : (r.ov, r.files.map pov) = mergeDupM P.grow P.instr.ov [] ((listedS P).map pov)
  dc : (r.dc, r.files.map pdc) = mergeDupM P.grow P.instr.dc [] ((listedS P).map pdc)
  sk : r.files.map (skel false) = mergeDuplicates ((listedS P).map (skel false))
  nodes : ∀ e ∈ r.files, e.nodes = documentsOf P.read1 P.read2 (expand P.fs P.dir P.instr.entries) e.path

/-- The entry with its documents. -/
def withNodes (read : Str → Option (List Node)) (y : Entry Slice Slice) : Entry Slice Slice :=
  { y with nodes := y.nodes ++ (read y.path).getD [] }

theorem merged (P : Setup) (h : Sound P) (ys : List (Entry Slice Slice)) (r1 : Lists)
    (hr1 : r1 = mergeDupS P.grow P.instr.ov P.instr.dc [] (expand P.fs P.dir P.instr.entries))
    (hys : ys = r1.files.map (withNodes P.read1)) :
    Merged P (mergeDupS P.grow r1.ov r1.dc [] (ys ++ (expand P.fs P.dir (adHocS P)).map (withNodes P.read2))) := by
  have ypov : ys.map pov = r1.files.map pov := by rw [hys, List.map_map]; rfl
  have ypdc : ys.map pdc = r1.files.map pdc := by rw [hys, List.map_map]; rfl
  have ysk : ys.map (skel false) = r1.files.map (skel false) := by rw [hys, List.map_map]; rfl
  have hp1 : r1.files.map (·.path) = firsts ((expand P.fs P.dir P.instr.entries).map (·.path)) := by
    rw [hr1]; exact merged_paths _ _ _ _
  have zpov : ((expand P.fs P.dir (adHocS P)).map (withNodes P.read2)).map pov = (expand P.fs P.dir (adHocS P)).map pov := by
    rw [List.map_map]; rfl
  have zpdc : ((expand P.fs P.dir (adHocS P)).map (withNodes P.read2)).map pdc = (expand P.fs P.dir (adHocS P)).map pdc := by
    rw [List.map_map]; rfl
  have zsk : ((expand P.fs P.dir (adHocS P)).map (withNodes P.read2)).map (skel false) =
      (expand P.fs P.dir (adHocS P)).map (skel false) := by rw [List.map_map]; rfl
  refine ⟨?_, ?_, ?_, ?_⟩
  · rw [mergeDupS_ov, List.map_append, ypov, zpov, listedS, List.map_append]
    have := mergeDupS_ov P.grow (expand P.fs P.dir P.instr.entries) P.instr.ov P.instr.dc []
    rw [← hr1] at this
    have e1 : r1.ov = (mergeDupM P.grow P.instr.ov [] ((expand P.fs P.dir P.instr.entries).map pov)).1 := by
      rw [show ([] : List (Str × Slice)) = ([] : List (Entry Slice Slice)).map pov from rfl, ← this]
    have e2 : r1.files.map pov = (mergeDupM P.grow P.instr.ov [] ((expand P.fs P.dir P.instr.entries).map pov)).2 := by
      rw [show ([] : List (Str × Slice)) = ([] : List (Entry Slice Slice)).map pov from rfl, ← this]
    rw [e1, e2]
    apply mergeDupM_twice
    rw [← e2, List.map_map]
    rw [show (Prod.fst ∘ pov) = (fun e : Entry Slice Slice => e.path) from rfl, hp1]
    exact firsts_nodup _
  · rw [mergeDupS_dc, List.map_append, ypdc, zpdc, listedS, List.map_append]
    have := mergeDupS_dc P.grow (expand P.fs P.dir P.instr.entries) P.instr.ov P.instr.dc []
    rw [← hr1] at this
    have e1 : r1.dc = (mergeDupM P.grow P.instr.dc [] ((expand P.fs P.dir P.instr.entries).map pdc)).1 := by
      rw [show ([] : List (Str × Slice)) = ([] : List (Entry Slice Slice)).map pdc from rfl, ← this]
    have e2 : r1.files.map pdc = (mergeDupM P.grow P.instr.dc [] ((expand P.fs P.dir P.instr.entries).map pdc)).2 := by
      rw [show ([] : List (Str × Slice)) = ([] : List (Entry Slice Slice)).map pdc from rfl, ← this]
    rw [e1, e2]
    apply mergeDupM_twice
    rw [← e2, List.map_map]
    rw [show (Prod.fst ∘ pdc) = (fun e : Entry Slice Slice => e.path) from rfl, hp1]
    exact firsts_nodup _
  · rw [mergeDupS_skel false _ _ _ _ _ (by simp), List.map_append, ysk, zsk, listedS, List.map_append]
    have := mergeDupS_skel false P.grow (expand P.fs P.dir P.instr.entries) P.instr.ov P.instr.dc [] (by simp)
    rw [← hr1] at this
    rw [this]
    exact mergeDuplicates_twice _ _
  · intro e he
    have hs := mergeDupS_skel true P.grow (ys ++ (expand P.fs P.dir (adHocS P)).map (withNodes P.read2)) r1.ov r1.dc [] (by simp)
    have hm : skel true e ∈ mergeDuplicates ((ys ++ (expand P.fs P.dir (adHocS P)).map (withNodes P.read2)).map (skel true)) := by
      rw [show mergeDuplicates _ = _ from hs.symm]
      exact List.mem_map_of_mem he
    obtain ⟨_, _, _, f, hf, _, hn⟩ := C35_entry _ _ hm
    have hn : e.nodes = f.nodes := hn
    rw [hn]
    have hf : (entriesFor e.path ((ys ++ (expand P.fs P.dir (adHocS P)).map (withNodes P.read2)).map (skel true))).head? = some f := hf
    unfold entriesFor at hf
    rw [List.map_append, List.filter_append, List.head?_append] at hf
    have hez : ∀ x ∈ expand P.fs P.dir (adHocS P), x.nodes = [] := by
      intro x hx
      obtain ⟨y, hy, _, _, h1 | h1⟩ := mem_expand _ _ _ _ hx
      · rw [h1]
        unfold adHocS at hy
        split at hy
        · cases hy
        · rw [List.mem_singleton.1 hy]; rfl
      · exact h1
    by_cases hin : e.path ∈ (expand P.fs P.dir P.instr.entries).map (·.path)
    · have : e.path ∈ r1.files.map (·.path) := by rw [hp1, firsts_mem]; exact hin
      obtain ⟨y, hy, hyp⟩ := List.mem_map.1 this
      cases hh : ((ys.map (skel true)).filter (fun y => decide (y.path = e.path))).head? with
      | none =>
        rw [List.head?_eq_none_iff, List.filter_eq_nil_iff] at hh
        exact absurd (by simpa [withNodes, skel] using hyp)
          (hh (skel true (withNodes P.read1 y)) (by rw [hys, List.map_map]; exact List.mem_map_of_mem hy))
      | some g =>
        rw [hh] at hf
        simp only [Option.some_or, Option.some.injEq] at hf
        subst hf
        have hg := List.mem_of_mem_head? hh
        rw [List.mem_filter, hys, List.map_map] at hg
        obtain ⟨hg, hgp⟩ := hg
        obtain ⟨w, hw, rfl⟩ := List.mem_map.1 hg
        have hwp : w.path = e.path := by simpa [withNodes, skel] using hgp
        show w.nodes ++ (P.read1 w.path).getD [] = _
        rw [hwp]
        have hs1 := mergeDupS_skel true P.grow (expand P.fs P.dir P.instr.entries) P.instr.ov P.instr.dc [] (by simp)
        rw [← hr1] at hs1
        have hm1 : skel true w ∈ mergeDuplicates ((expand P.fs P.dir P.instr.entries).map (skel true)) := by
          rw [show mergeDuplicates _ = _ from hs1.symm]
          exact List.mem_map_of_mem hw
        obtain ⟨_, _, _, f1, hf1, _, hn1⟩ := C35_entry _ _ hm1
        have hn1 : w.nodes = f1.nodes := hn1
        have hf1 : (entriesFor e.path ((expand P.fs P.dir P.instr.entries).map (skel true))).head? = some f1 := by
          rw [← hwp]; exact hf1
        rw [← documentsOf_map P.read1 P.read2 (skel true) (fun _ => rfl) (fun _ => rfl)]
        unfold documentsOf
        rw [hf1, hn1]
    · have hdoc : documentsOf P.read1 P.read2 (expand P.fs P.dir P.instr.entries) e.path = (P.read2 e.path).getD [] := by
        unfold documentsOf entriesFor
        have : ((expand P.fs P.dir P.instr.entries).filter (fun y => decide (y.path = e.path))) = [] := by
          rw [List.filter_eq_nil_iff]
          intro x hx hxp
          exact hin (List.mem_map.2 ⟨x, hx, by simpa using hxp⟩)
        rw [this]; rfl
      rw [hdoc]
      have hh : ((ys.map (skel true)).filter (fun y => decide (y.path = e.path))).head? = none := by
        rw [List.head?_eq_none_iff, List.filter_eq_nil_iff]
        intro g hg hgp
        rw [hys, List.map_map] at hg
        obtain ⟨w, hw, rfl⟩ := List.mem_map.1 hg
        have hwp : w.path = e.path := by simpa [withNodes, skel] using hgp
        apply hin
        rw [← firsts_mem, ← hp1, ← hwp]
        exact List.mem_map.2 ⟨w, hw, rfl⟩
      rw [hh] at hf
      simp only [Option.none_or] at hf
      have hg := List.mem_of_mem_head? hf
      rw [List.mem_filter, List.map_map] at hg
      obtain ⟨hg, hgp⟩ := hg
      obtain ⟨w, hw, rfl⟩ := List.mem_map.1 hg
      have hwp : w.path = e.path := by simpa [withNodes, skel] using hgp
      show w.nodes ++ (P.read2 w.path).getD [] = _
      rw [hwp, hez w hw]
      rfl

theorem sound_lists (P : Setup) (h : Sound P) : ∀ e ∈ listedS P,
    (e.overlays.Valid P.instr.ov ∧ e.overlays.cap = e.overlays.len) ∧
    (e.documents.Valid P.instr.dc ∧ e.documents.cap = e.documents.len) := by
  have hnil : ∀ m : Mem Nat, nilSlice.Valid m ∧ nilSlice.cap = nilSlice.len := by
    intro m; exact ⟨⟨Nat.le_refl _, fun h => absurd h (Nat.lt_irrefl _), fun i hi => absurd hi (Nat.not_lt_zero _)⟩, rfl⟩
  intro e he
  rcases List.mem_append.1 he with he | he
  · obtain ⟨y, hy, h1, h2, _⟩ := mem_expand _ _ _ _ he
    rw [h1, h2]
    exact ⟨h.overlays y hy, h.documents y hy⟩
  · obtain ⟨y, hy, h1, h2, _⟩ := mem_expand _ _ _ _ he
    unfold adHocS at hy
    split at hy
    · cases hy
    · rw [List.mem_singleton.1 hy] at h1 h2
      rw [h1, h2]
      exact ⟨hnil _, hnil _⟩

theorem own_eq (P : Setup) (p : Str) : overlaysFor P.instr.ov p ((listedS P).map pov) = own P p := by
  unfold overlaysFor own entriesFor
  rw [listed_eq, List.filter_map, List.filter_map, List.flatMap_map, List.flatMap_map]
  rfl

theorem ownDocs_eq (P : Setup) (p : Str) : (overlaysFor P.instr.dc p ((listedS P).map pdc)).map P.docObj = ownDocs P p := by
  unfold overlaysFor ownDocs entriesFor
  rw [listed_eq, List.filter_map, List.filter_map, List.flatMap_map, List.flatMap_map, List.map_flatMap]
  rfl

theorem inputs_eq (P : Setup) : inputs P = firsts ((listedS P).map (·.path)) := by
  unfold inputs
  rw [listed_eq, List.map_map]
  rfl

/-- What `getInstructions` gives once everything has been read. -/
theorem assembled (P : Setup) (h : Sound P) (r : Lists) (hm : Merged P r) :
    ∀ r3, addCommandLineM P.grow r.ov P.instr.common P.adHoc = r3 →
    ∀ r4, addCommonS P.grow r3.2 r3.1 (setOutputPaths r.files) = r4 →
    ∀ files, removeAllComments P.removeComments (r4.2.map (Entry.read r4.1 r.dc P.docObj)) = files →
    files.map (·.path) = inputs P ∧
    ∀ e ∈ files, e.overlays = Spec.common P ++ gets P e.path ∧ e.documents = ownDocs P e.path ∧
      e.nodes = contents P e.path ∧ outputName P.outDir e = nameFor P e.path := by
  intro r3 hr3 r4 hr4 files hfiles
  have hso : (setOutputPaths r.files).map (·.overlays) = r.files.map (·.overlays) := by
    unfold setOutputPaths; rw [List.map_map]; rfl
  obtain ⟨c1, c2, c3, c4⟩ := addCommonS_eq P.grow r3.2 (setOutputPaths r.files) r3.1
  rw [hr4] at c1 c2 c3 c4
  rw [hso] at c1 c2
  -- overlays
  have hos : overlaySlices P.grow P.instr.ov P.instr.common P.adHoc ((listedS P).map pov) = (r4.1, r4.2.map pov) := by
    unfold overlaySlices
    rw [← hm.ov]
    simp only
    rw [hr3, List.map_map, List.map_map, show (Prod.snd ∘ pov) = (fun e : Entry Slice Slice => e.overlays) from rfl, ← c1, ← c2]
    congr 1
    have hpaths : r4.2.map (·.path) = r.files.map (·.path) := by
      have := congrArg (List.map (·.path)) c4
      rw [List.map_map, List.map_map] at this
      rw [show r4.2.map (·.path) = r4.2.map ((fun x => x.path) ∘ skel true) from rfl, this]
      unfold setOutputPaths
      rw [List.map_map]; rfl
    rw [show (Prod.fst ∘ pov) = (fun e : Entry Slice Slice => e.path) from rfl, ← hpaths]
    rw [List.zip_map', ]
    rfl
  obtain ⟨p1, p2⟩ := C34_what_each_file_gets P.grow h.grow P.instr.ov P.instr.common P.adHoc ((listedS P).map pov)
    h.common (by
      intro e he
      obtain ⟨x, hx, rfl⟩ := List.mem_map.1 he
      exact (sound_lists P h x hx).1)
    (inputs P) (by rw [inputs_eq, List.map_map]; rfl) (own P) (fun p => (own_eq P p).symm)
    (spare P) (by unfold spare; rw [Mem.read_length _ _ h.common.1]) _ hos
  simp only at p1 p2
  -- documents
  have hds : ∀ x ∈ r.files, (r.dc.read x.documents).map P.docObj = ownDocs P x.path := by
    intro x hx
    obtain ⟨_, _, _, d4⟩ := mergeDupM_spec P.grow h.grow nilSlice ((listedS P).map pdc) P.instr.dc []
      ⟨by simp, by simp, by
        intro t ht
        obtain ⟨x, hx, rfl⟩ := List.mem_map.1 ht
        exact (sound_lists P h x hx).2.1, ⟨Nat.le_refl _, fun h => absurd h (Nat.lt_irrefl _), fun i hi => absurd hi (Nat.not_lt_zero _)⟩,
        by simp, by simp, by simp, by
        intro t ht
        obtain ⟨x, hx, rfl⟩ := List.mem_map.1 ht
        exact (sound_lists P h x hx).2.2⟩ _ hm.dc.symm
    have := d4 (pdc x) (List.mem_map_of_mem hx)
    simp only [pdc, List.nil_append] at this
    rw [this]
    exact ownDocs_eq P x.path
  have hpaths : r.files.map (·.path) = inputs P := by
    have := congrArg (List.map (·.path)) hm.sk
    rw [C35_paths, List.map_map, List.map_map] at this
    rw [inputs_eq]; exact this
  have hpaths4 : r4.2.map (·.path) = inputs P := by
    have := congrArg (List.map (·.path)) c4
    rw [List.map_map, List.map_map] at this
    rw [show r4.2.map (·.path) = r4.2.map ((fun x => x.path) ∘ skel true) from rfl, this, ← hpaths]
    unfold setOutputPaths
    rw [List.map_map]; rfl
  -- each file
  have each : ∀ x ∈ r4.2, r4.1.read x.overlays = Spec.common P ++ gets P x.path ∧
      (r.dc.read x.documents).map P.docObj = ownDocs P x.path ∧
      (if P.removeComments then x.nodes.map removeComments else x.nodes) = contents P x.path ∧
      outputName P.outDir x = nameFor P x.path := by
    intro x hx
    refine ⟨?_, ?_, ?_, ?_⟩
    · have := p2 (pov x) (List.mem_map_of_mem hx)
      rw [show (pov x).2 = x.overlays from rfl] at this
      rw [this]
      rfl
    · have : pdc x ∈ (setOutputPaths r.files).map pdc := by rw [← c3]; exact List.mem_map_of_mem hx
      obtain ⟨y, hy, he⟩ := List.mem_map.1 this
      unfold setOutputPaths at hy
      obtain ⟨z, hz, rfl⟩ := List.mem_map.1 hy
      simp only [pdc, Prod.mk.injEq] at he
      rw [← he.1, ← he.2]
      exact hds z hz
    · have : skel true x ∈ (setOutputPaths r.files).map (skel true) := by rw [← c4]; exact List.mem_map_of_mem hx
      obtain ⟨y, hy, he⟩ := List.mem_map.1 this
      unfold setOutputPaths at hy
      obtain ⟨z, hz, rfl⟩ := List.mem_map.1 hy
      have e1 : z.nodes = x.nodes := congrArg (fun y : YamlFile => y.nodes) he
      have e2 : z.path = x.path := congrArg (fun y : YamlFile => y.path) he
      rw [← e1, ← e2, hm.nodes z hz]
      unfold contents
      rw [show given P = P.instr.entries.map (Entry.read P.instr.ov P.instr.dc P.docObj) from rfl, ← expand_read,
        documentsOf_map _ _ (Entry.read P.instr.ov P.instr.dc P.docObj) (fun _ => rfl) (fun _ => rfl)]
    · have : skel true x ∈ (setOutputPaths r.files).map (skel true) := by rw [← c4]; exact List.mem_map_of_mem hx
      obtain ⟨y, hy, he⟩ := List.mem_map.1 this
      unfold setOutputPaths at hy
      obtain ⟨z, hz, rfl⟩ := List.mem_map.1 hy
      have e1 : outputPathFor (getCommonPrefix ((r.files.map (·.path)).filter (· ≠ ['-']))) z = x.outputPath :=
        congrArg (fun y : YamlFile => y.outputPath) he
      have e2 : z.path = x.path := congrArg (fun y : YamlFile => y.path) he
      have hz' : skel false z ∈ mergeDuplicates ((listedS P).map (skel false)) := by
        rw [← hm.sk]; exact List.mem_map_of_mem hz
      obtain ⟨_, _, e3, _⟩ := C35_entry _ _ hz'
      have e3 : z.outputPath = givenOutput P z.path := by
        rw [show z.outputPath = (skel false z).outputPath from rfl, e3]
        unfold givenOutput entriesFor
        rw [listed_eq, List.filter_map, List.filter_map, List.map_map, List.map_map]
        rfl
      unfold nameFor outputName
      simp only
      rw [← e1, hpaths, ← e2]
      unfold outputPathFor
      simp only [e3]
  subst hfiles
  constructor
  · unfold removeAllComments
    split
    · rw [List.map_map, List.map_map, ← hpaths4]; rfl
    · rw [List.map_map, ← hpaths4]; rfl
  · intro e he
    unfold removeAllComments at he
    split at he
    · rename_i hrc
      rw [List.map_map] at he
      obtain ⟨x, hx, rfl⟩ := List.mem_map.1 he
      have := each x hx
      rw [if_pos hrc] at this
      exact this
    · rename_i hrc
      obtain ⟨x, hx, rfl⟩ := List.mem_map.1 he
      have := each x hx
      rw [if_neg hrc] at this
      exact this

/-- **C55**, the inputs: if everything can be read, the run is about each input once, with
the overlays, documents, contents and output name it is to have; otherwise, unless listing
the files never ends, the run ends with an error before anything is written. -/
theorem C55_inputs (P : Setup) (h : Sound P) : ∃ N, ∀ fuel, N ≤ fuel →
    (Readable P → ∃ files, P.getInstructions fuel = .done files ∧ files.map (·.path) = inputs P ∧
      ∀ e ∈ files, e.overlays = Spec.common P ++ gets P e.path ∧ e.documents = ownDocs P e.path ∧
        e.nodes = contents P e.path ∧ outputName P.outDir e = nameFor P e.path) ∧
    (¬ Readable P → ¬ Hangs P → P.getInstructions fuel = .err) ∧
    (Hangs P → P.getInstructions fuel = .running) := by
  obtain ⟨⟨N1, hN1⟩, a3⟩ := C36_expansion P.fs P.dir h.dir h.fs P.instr.entries
  obtain ⟨⟨N2, hN2⟩, b3⟩ := C36_expansion P.fs P.dir h.dir h.fs [P.adHocEntry]
  refine ⟨max N1 N2, fun fuel hf => ?_⟩
  obtain ⟨a1, a2⟩ := hN1 fuel (by omega)
  obtain ⟨b1, b2⟩ := hN2 fuel (by omega)
  have hadg : adHocGiven P = (adHocS P).map (Entry.read P.instr.ov P.instr.dc P.docObj) := by
    unfold adHocGiven adHocS; split <;> rfl
  have hrd : Readable P ↔ FilesRead P.fs P.dir P.read1 P.instr.entries ∧ FilesRead P.fs P.dir P.read2 (adHocS P) := by
    unfold Readable
    rw [hadg, show given P = P.instr.entries.map (Entry.read P.instr.ov P.instr.dc P.docObj) from rfl,
      filesRead_map _ _ _ (Entry.read P.instr.ov P.instr.dc P.docObj) (fun _ => rfl) (fun _ => rfl), filesRead_map _ _ _ (Entry.read P.instr.ov P.instr.dc P.docObj) (fun _ => rfl) (fun _ => rfl)]
  have hhg : Hangs P ↔ Endless P.fs P.dir P.instr.entries ∨
      FilesRead P.fs P.dir P.read1 P.instr.entries ∧ Endless P.fs P.dir (adHocS P) := by
    unfold Hangs
    rw [hadg, show given P = P.instr.entries.map (Entry.read P.instr.ov P.instr.dc P.docObj) from rfl,
      filesRead_map _ _ _ (Entry.read P.instr.ov P.instr.dc P.docObj) (fun _ => rfl) (fun _ => rfl), endless_map _ _ (Entry.read P.instr.ov P.instr.dc P.docObj) (fun _ => rfl) (fun _ => rfl),
      endless_map _ _ (Entry.read P.instr.ov P.instr.dc P.docObj) (fun _ => rfl) (fun _ => rfl)]
  rw [hrd, hhg]
  have hA : FilesRead P.fs P.dir P.read1 P.instr.entries →
      ∃ es r1 ys, expandLoop P.fs P.dir fuel [] P.instr.entries = .done es ∧ es = expand P.fs P.dir P.instr.entries ∧
      r1 = mergeDupS P.grow P.instr.ov P.instr.dc [] es ∧ readAll P.read1 r1.files = some ys ∧
      ys = r1.files.map (withNodes P.read1) := by
    intro ha
    refine ⟨_, _, _, a1 ha.1 ha.2.1, rfl, rfl, ?_, rfl⟩
    rw [readAll_eq, if_pos]
    · rfl
    · intro y hy
      have : y.path ∈ (expand P.fs P.dir P.instr.entries).map (·.path) := by
        rw [← firsts_mem, ← merged_paths P.grow P.instr.ov P.instr.dc]
        exact List.mem_map.2 ⟨y, hy, rfl⟩
      obtain ⟨z, hz, he⟩ := List.mem_map.1 this
      rw [← he]; exact ha.2.2 z hz
  have hA' : ¬ FilesRead P.fs P.dir P.read1 P.instr.entries → ¬ Endless P.fs P.dir P.instr.entries →
      P.getInstructions fuel = .err := by
    intro ha he
    unfold Setup.getInstructions
    by_cases h1 : Refused P.fs P.dir P.instr.entries
    · rw [a2 h1]
    · have h2 : ¬ LinkedDir P.fs P.dir P.instr.entries := fun h2 => he ⟨h1, h2⟩
      rw [a1 h1 h2]
      simp only
      rw [readAll_eq, if_neg]
      intro h3
      apply ha
      refine ⟨h1, h2, fun y hy => ?_⟩
      have : y.path ∈ (mergeDupS P.grow P.instr.ov P.instr.dc [] (expand P.fs P.dir P.instr.entries)).files.map (·.path) := by
        rw [merged_paths, firsts_mem]; exact List.mem_map.2 ⟨y, hy, rfl⟩
      obtain ⟨z, hz, he⟩ := List.mem_map.1 this
      rw [← he]; exact h3 z hz
  have hnone : P.adHocPath = [] → FilesRead P.fs P.dir P.read2 (adHocS P) ∧ ¬ Endless P.fs P.dir (adHocS P) := by
    intro h0
    rw [show adHocS P = [] by unfold adHocS; rw [if_pos h0]]
    exact ⟨⟨by simp [Refused, below], by simp [LinkedDir, below], by simp [expand]⟩, by simp [Endless, LinkedDir, below]⟩
  have hB : (FilesRead P.fs P.dir P.read2 (adHocS P) →
        P.adHocFiles fuel = .done ((expand P.fs P.dir (adHocS P)).map (withNodes P.read2))) ∧
      (Endless P.fs P.dir (adHocS P) → P.adHocFiles fuel = .running) ∧
      (¬ FilesRead P.fs P.dir P.read2 (adHocS P) → ¬ Endless P.fs P.dir (adHocS P) → P.adHocFiles fuel = .err) := by
    unfold Setup.adHocFiles
    by_cases h0 : P.adHocPath = []
    · rw [if_pos h0]
      refine ⟨fun _ => by simp [adHocS, h0, expand], fun h1 => absurd h1 (hnone h0).2, fun h1 => absurd (hnone h0).1 h1⟩
    · rw [if_neg h0]
      have hs : adHocS P = [P.adHocEntry] := by unfold adHocS; rw [if_neg h0]
      rw [hs]
      refine ⟨fun hb => ?_, fun hb => ?_, fun hb he => ?_⟩
      · rw [b1 hb.1 hb.2.1]
        simp only
        rw [readAll_eq, if_pos hb.2.2]
        rfl
      · rw [b3 hb]
      · by_cases h1 : Refused P.fs P.dir [P.adHocEntry]
        · rw [b2 h1]
        · have h2 : ¬ LinkedDir P.fs P.dir [P.adHocEntry] := fun h2 => he ⟨h1, h2⟩
          rw [b1 h1 h2]
          simp only
          rw [readAll_eq, if_neg]
          exact fun h3 => hb ⟨h1, h2, h3⟩
  obtain ⟨hB, hBr, hBe⟩ := hB
  have second : ∀ x, x ≠ .done [] → (∀ zs, x ≠ .done zs) → FilesRead P.fs P.dir P.read1 P.instr.entries → P.adHocFiles fuel = x →
      (x = .err → P.getInstructions fuel = .err) ∧ (x = .running → P.getInstructions fuel = .running) := by
    intro x _ hx ha hax
    obtain ⟨es, r1, ys, h1, h2, h3, h4, h5⟩ := hA ha
    unfold Setup.getInstructions
    rw [h1]
    simp only
    rw [← h3, h4]
    simp only
    rw [hax]
    constructor <;> rintro rfl <;> rfl
  refine ⟨?_, ?_, ?_⟩
  · rintro ⟨ha, hb⟩
    obtain ⟨es, r1, ys, h1, h2, h3, h4, h5⟩ := hA ha
    subst h2
    have hmg := merged P h ys r1 h3 h5
    have hun : P.getInstructions fuel = .done (
        let r2 := mergeDupS P.grow r1.ov r1.dc [] (ys ++ (expand P.fs P.dir (adHocS P)).map (withNodes P.read2))
        let r3 := addCommandLineM P.grow r2.ov P.instr.common P.adHoc
        let r4 := addCommonS P.grow r3.2 r3.1 (setOutputPaths r2.files)
        removeAllComments P.removeComments (r4.2.map (Entry.read r4.1 r2.dc P.docObj))) := by
      unfold Setup.getInstructions
      rw [h1]
      simp only
      rw [← h3, h4]
      simp only
      rw [hB hb]
      simp only
      by_cases h0 : P.adHocPath = []
      · rw [if_pos h0]
        have hz : (expand P.fs P.dir (adHocS P)).map (withNodes P.read2) = [] := by simp [adHocS, h0, expand]
        rw [hz, List.append_nil, mergeDupS_distinct P.grow ys r1.ov r1.dc [] ?_]
        · rfl
        · rw [List.nil_append, h5, List.map_map]
          rw [show ((fun x : Entry Slice Slice => x.path) ∘ withNodes P.read1) = (fun x => x.path) from rfl, h3, merged_paths]
          exact firsts_nodup _
      · rw [if_neg h0]
    rw [hun]
    exact ⟨_, rfl, assembled P h _ hmg _ rfl _ rfl _ rfl⟩
  · intro hn hh
    by_cases ha : FilesRead P.fs P.dir P.read1 P.instr.entries
    · have hb : ¬ FilesRead P.fs P.dir P.read2 (adHocS P) := fun hb => hn ⟨ha, hb⟩
      exact (second .err (by simp) (by simp) ha (hBe hb (fun he => hh (.inr ⟨ha, he⟩)))).1 rfl
    · exact hA' ha (fun he => hh (.inl he))
  · rintro (he | ⟨ha, he⟩)
    · unfold Setup.getInstructions
      rw [a3 he]
    · exact (second .running (by simp) (by simp) ha (hBr he)).2 rfl

/-- **C55** The overlays an input gets are its own, for all inputs, exactly if no two inputs
have own overlays that fit into the spare room `append` leaves behind that of the command
line and differ at some position both have. In particular, if there is none on the command
line. -/
theorem C55_own_overlays (P : Setup) :
    ((∀ p ∈ inputs P, gets P p = own P p) ↔
      ∀ p ∈ inputs P, ∀ q ∈ inputs P, (own P p).length ≤ spare P → (own P q).length ≤ spare P → Agree (own P p) (own P q)) ∧
    (P.adHoc = none → ∀ p ∈ inputs P, gets P p = own P p) := by
  have key := received_eq_iff (spare P) ((inputs P).map (own P))
  simp only [List.forall_mem_map] at key
  refine ⟨key, fun hn => key.2 ?_⟩
  have h0 : spare P = 0 := by unfold spare; rw [hn]; rfl
  intro p _ q _ hp _ j x y hx _
  rw [h0] at hp
  rw [List.eq_nil_of_length_eq_zero (by omega : (own P p).length = 0)] at hx
  cases hx

/-! ### The run -/

/-- What an item does to the documents. -/
def itemStep (E : Sed) (dflt : Str) (docs : List Node) (w : Nat × Option DOverlay) : Res Err (List Node) :=
  match w.2 with
  | none => .panic
  | some o =>
    match docs[w.1]? with
    | none => .ok docs
    | some d => o.apply E dflt d.label >>= fun d' => .ok (docs.set w.1 d')

/-- What items do to the documents, in order. -/
def runItems (E : Sed) (dflt : Str) (docs : List Node) (ws : List (Nat × Option DOverlay)) : Res Err (List Node) :=
  ws.foldlM (itemStep E dflt) docs

theorem runItems_append (E : Sed) (dflt : Str) (docs : List Node) (a b : List (Nat × Option DOverlay)) :
    runItems E dflt docs (a ++ b) = runItems E dflt docs a >>= fun d => runItems E dflt d b := by
  unfold runItems
  rw [List.foldlM_append]

theorem runItems_cons (E : Sed) (dflt : Str) (docs : List Node) (w : Nat × Option DOverlay) (b : List (Nat × Option DOverlay)) :
    runItems E dflt docs (w :: b) = itemStep E dflt docs w >>= fun d => runItems E dflt d b := by
  simp [runItems, List.foldlM_cons]

theorem workload_length {R : Run} {docs docs' : List Node} {w : Nat × Nat} (h : workload R docs w = .ok docs') :
    docs'.length = docs.length := by
  unfold workload at h
  split at h
  · cases h; rfl
  · split at h
    · cases h
    · obtain ⟨x, _, h2⟩ := Res.bind_eq_ok.1 h
      cases h2
      simp

theorem workloads_length {R : Run} (ws : List (Nat × Nat)) : ∀ {docs docs' : List Node}, workloads R docs ws = .ok docs' →
    docs'.length = docs.length := by
  induction ws with
  | nil => intro docs docs' h; cases h; rfl
  | cons w ws ih =>
    intro docs docs' h
    rw [workloads_cons] at h
    obtain ⟨x, h1, h2⟩ := Res.bind_eq_ok.1 h
    rw [ih h2, workload_length h1]

/-- What is sent stands for these items, on `n` documents. -/
def Sent.Denotes (R : Run) (n : Nat) (s : Sent) (L : List (Nat × Option DOverlay)) : Prop :=
  ∀ docs, docs.length = n → runItems R.sed R.dflt docs L = workloads R docs s.1 >>= fun d => if s.2 then .panic else .ok d

theorem Sent.Denotes.andThen {R : Run} {a b : Sent} {A B : List (Nat × Option DOverlay)} {n : Nat} (ha : a.Denotes R n A) (hb : b.Denotes R n B) :
    (a.andThen b).Denotes R n (A ++ B) := by
  intro docs hl
  rw [runItems_append, ha docs hl]
  unfold Sent.andThen
  by_cases h : a.2 = true
  · rw [if_pos h]
    simp only [h, if_true]
    cases workloads R docs a.1 <;> rfl
  · rw [if_neg h]
    simp only
    unfold workloads
    rw [List.foldlM_append]
    have h : a.2 = false := by simpa using h
    simp only [h, Bool.false_eq_true, if_false]
    change _ = (workloads R docs a.1 >>= fun d => workloads R d b.1) >>= _
    change (workloads R docs a.1 >>= _) >>= _ = _
    cases hw : workloads R docs a.1 with
    | ok d => exact hb d (by rw [workloads_length _ hw, hl])
    | err e => rfl
    | panic => rfl

theorem workload_item (P : Setup) (files : List Written) (docs : List Node) (w : Nat × Nat) (hw : w.1 < docs.length) :
    workload (P.run files) docs w = itemStep P.sed P.dflt docs (w.1, P.obj w.2) := by
  unfold workload itemStep
  rw [List.getElem?_eq_getElem hw]
  cases h : P.obj w.2 with
  | none => simp [Setup.run, h]
  | some o =>
    simp only
    rw [DOverlay.apply_eq]
    simp only [Setup.run, h]
    by_cases hn : o.nilIn P.sed P.dflt (docs[w.1]).label = true
    · rw [if_pos hn, if_pos hn]; rfl
    · rw [if_neg hn, if_neg hn]; rfl

/-- Pointers sent for document `i`. -/
theorem denotes_ptrs (P : Setup) (files : List Written) (n i : Nat) (hi : i < n) (ps : List Nat) :
    Sent.Denotes (P.run files) n (ps.map (fun p => (i, p)), false) (ps.map (fun p => (i, P.obj p))) := by
  induction ps with
  | nil => intro docs _; rfl
  | cons p ps ih =>
    intro docs hl
    rw [List.map_cons, runItems_cons]
    simp only [List.map_cons]
    rw [workloads_cons, workload_item P files docs (i, p) (by omega)]
    simp only
    change itemStep P.sed P.dflt docs (i, P.obj p) >>= _ = _
    cases hw : itemStep P.sed P.dflt docs (i, P.obj p) with
    | ok d =>
      have := ih d (by
        rw [← workload_item P files docs (i, p) (by show i < _; omega)] at hw
        rw [workload_length hw, hl])
      exact this
    | err e => rfl
    | panic => rfl

/-- A null. -/
theorem denotes_null (R : Run) (n i : Nat) (L : List (Nat × Option DOverlay)) : Sent.Denotes R n ([], true) ((i, none) :: L) := by
  intro docs _
  rw [runItems_cons]
  rfl

theorem denotes_overlays (P : Setup) (files : List Written) (n i : Nat) (hi : i < n) (ps : List Nat) :
    (sendOverlays P.obj i ps).Denotes (P.run files) n
      (((ps.map P.obj).filter (fun x => decide (ItemSelects x i))).map (fun x => (i, x))) := by
  induction ps with
  | nil => intro docs _; rfl
  | cons p ps ih =>
    cases h : P.obj p with
    | none =>
      rw [sendOverlays, h, List.map_cons, h, List.filter_cons_of_pos (by simp [ItemSelects]), List.map_cons]
      exact denotes_null _ _ _ _
    | some o =>
      rw [sendOverlays, h, List.map_cons, h]
      simp only
      by_cases hs : Selects o.base i
      · have h1 : o.base.checkDocumentIndex i = true := by rw [checkDocumentIndex_iff]; exact decide_eq_true hs
        rw [if_pos h1, List.filter_cons_of_pos (by simpa [ItemSelects] using hs), List.map_cons]
        have := denotes_ptrs P files n i hi [p]
        simp only [List.map_cons, List.map_nil, h] at this
        exact this.andThen ih
      · have h1 : ¬ o.base.checkDocumentIndex i = true := fun h1 => hs (by rw [checkDocumentIndex_iff] at h1; exact of_decide_eq_true h1)
        rw [if_neg h1, List.filter_cons_of_neg (by simpa [ItemSelects] using hs)]
        have := (denotes_ptrs P files n i hi []).andThen ih
        exact this

theorem denotes_documents (P : Setup) (files : List Written) (n i : Nat) (hi : i < n) (ds : List (Option DocObj)) :
    (sendDocuments i ds).Denotes (P.run files) n
      ((ds.flatMap (fun d => itemsFor i (d.map (DocObj.deref P.obj)))).map (fun x => (i, x))) := by
  induction ds with
  | nil => intro docs _; rfl
  | cons d ds ih =>
    rw [List.flatMap_cons, List.map_append]
    cases d with
    | none => exact denotes_null _ _ _ _
    | some d =>
      rw [sendDocuments]
      refine Sent.Denotes.andThen ?_ ih
      simp only [Option.map_some, itemsFor]
      show Sent.Denotes _ _ _ (List.map _ (if d.path = (i : Int) then d.overlays.map P.obj else []))
      by_cases hd : d.path = (i : Int)
      · rw [if_pos hd, if_pos hd, List.map_map]
        exact denotes_ptrs P files n i hi d.overlays
      · rw [if_neg hd, if_neg hd]
        exact denotes_ptrs P files n i hi []

/-- The items for the documents from number `i` on. -/
def itemsFrom (L : Nat → List (Option DOverlay)) : Nat → List Node → List (Nat × Option DOverlay)
  | _, [] => []
  | i, _ :: ns => (L i).map (fun x => (i, x)) ++ itemsFrom L (i + 1) ns

theorem denotes_sendFrom (P : Setup) (files : List Written) (e : Written) (L : Nat → List (Option DOverlay))
    (hL : ∀ i, L i = (e.overlays.map P.obj).filter (fun x => decide (ItemSelects x i)) ++
      e.documents.flatMap (fun d => itemsFor i (d.map (DocObj.deref P.obj)))) (ns : List Node) :
    ∀ i, (e.sendFrom P.obj i ns).Denotes (P.run files) (i + ns.length) (itemsFrom L i ns) := by
  induction ns with
  | nil => intro i docs _; rfl
  | cons n ns ih =>
    intro i
    rw [Entry.sendFrom, itemsFrom, hL, List.map_append]
    refine Sent.Denotes.andThen (Sent.Denotes.andThen ?_ ?_) ?_
    · exact denotes_overlays P files _ i (by simp) _
    · exact denotes_documents P files _ i (by simp) _
    · have := ih (i + 1)
      rwa [show i + 1 + ns.length = i + (n :: ns).length by simp; omega] at this

/-- What becomes of the documents, from number `i` on. -/
def applyEach (E : Sed) (dflt : Str) (L : Nat → List (Option DOverlay)) : Nat → List Node → Res Err (List Node)
  | _, [] => .ok []
  | i, d :: ds => applyItems E dflt (L i) d >>= fun d' => applyEach E dflt L (i + 1) ds >>= fun ds' => .ok (d' :: ds')

theorem runItems_one (E : Sed) (dflt : Str) (l : List (Option DOverlay)) (pre rest : List Node) : ∀ d : Node,
    runItems E dflt (pre ++ d :: rest) (l.map (fun x => (pre.length, x))) =
      applyItems E dflt l d >>= fun d' => .ok (pre ++ d' :: rest) := by
  induction l with
  | nil => intro d; rfl
  | cons x l ih =>
    intro d
    rw [List.map_cons, runItems_cons]
    cases x with
    | none => rfl
    | some o =>
      unfold itemStep
      simp only [List.getElem?_append_right (Nat.le_refl _), Nat.sub_self, List.getElem?_cons_zero]
      rw [applyItems]
      cases o.apply E dflt d.label with
      | err e => rfl
      | panic => rfl
      | ok d' =>
        simp only [Res.bind_ok]
        rw [List.set_append_right _ _ (Nat.le_refl _), Nat.sub_self, List.set_cons_zero]
        exact ih d'

theorem runItems_from (E : Sed) (dflt : Str) (L : Nat → List (Option DOverlay)) (ns : List Node) : ∀ pre : List Node,
    runItems E dflt (pre ++ ns) (itemsFrom L pre.length ns) = applyEach E dflt L pre.length ns >>= fun out => .ok (pre ++ out) := by
  induction ns with
  | nil => intro pre; rfl
  | cons d ns ih =>
    intro pre
    rw [itemsFrom, runItems_append, runItems_one, applyEach]
    cases applyItems E dflt (L pre.length) d with
    | err e => rfl
    | panic => rfl
    | ok d' =>
      simp only [Res.bind_ok]
      have := ih (pre ++ [d'])
      simp only [List.append_assoc, List.singleton_append, List.length_append, List.length_singleton] at this
      rw [this]
      cases applyEach E dflt L (pre.length + 1) ns <;> rfl

theorem applyEach_ok (E : Sed) (dflt : Str) (L : Nat → List (Option DOverlay)) (ns : List Node) : ∀ (i : Nat) (docs : List Node),
    applyEach E dflt L i ns = .ok docs ↔ docs.length = ns.length ∧
      ∀ k d, ns[k]? = some d → ∃ d', docs[k]? = some d' ∧ applyItems E dflt (L (i + k)) d = .ok d' := by
  induction ns with
  | nil =>
    intro i docs
    constructor
    · intro h; cases h; simp
    · rintro ⟨h, _⟩; rw [List.eq_nil_of_length_eq_zero h]; rfl
  | cons n ns ih =>
    intro i docs
    rw [applyEach]
    constructor
    · intro h
      obtain ⟨d', h1, h2⟩ := Res.bind_eq_ok.1 h
      obtain ⟨ds', h3, h4⟩ := Res.bind_eq_ok.1 h2
      cases h4
      obtain ⟨h5, h6⟩ := (ih _ _).1 h3
      refine ⟨by simp [h5], fun k d hk => ?_⟩
      cases k with
      | zero => cases hk; exact ⟨d', rfl, h1⟩
      | succ k =>
        obtain ⟨x, hx, hx'⟩ := h6 k d hk
        exact ⟨x, hx, by rw [← hx']; congr 2; omega⟩
    · rintro ⟨h1, h2⟩
      cases docs with
      | nil => cases h1
      | cons x docs =>
        obtain ⟨d', h3, h4⟩ := h2 0 n rfl
        cases h3
        have : applyEach E dflt L (i + 1) ns = .ok docs := by
          refine (ih _ _).2 ⟨by simpa using h1, fun k d hk => ?_⟩
          obtain ⟨y, hy, hy'⟩ := h2 (k + 1) d hk
          exact ⟨y, hy, by rw [← hy']; congr 2; omega⟩
        rw [show L i = L (i + 0) from rfl, h4, Res.bind_ok, this]
        rfl

theorem run_file (P : Setup) (files : List Written) (i : Nat) (e : Written) (h : files[i]? = some e) :
    (P.run files).file i = e.bare := by
  unfold Run.file Setup.run
  simp [h]

/-- What the run makes of a file, in terms of the specification. -/
theorem resultFor_eq (P : Setup) (files : List Written) (i : Nat) (e : Written) (he : files[i]? = some e)
    (h1 : e.overlays = Spec.common P ++ gets P e.path)
    (h2 : e.documents = ownDocs P e.path) (h3 : e.nodes = contents P e.path) :
    resultFor (P.run files) i = applyEach P.sed P.dflt (overlaysOn P e.path) 0 (contents P e.path) := by
  unfold resultFor
  rw [run_file P files i e he]
  have hs : P.sent files i = e.sendFrom P.obj 0 e.nodes := by unfold Setup.sent; rw [he]
  have hw : (P.run files).work i = (e.sendFrom P.obj 0 e.nodes).1 := by rw [← hs]; rfl
  have hst : (P.run files).stops i = (e.sendFrom P.obj 0 e.nodes).2 := by rw [← hs]; rfl
  rw [hw, hst]
  have := denotes_sendFrom P files e (overlaysOn P e.path) (by
    intro i
    unfold overlaysOn
    rw [h1, h2]) e.nodes 0 e.nodes (by simp)
  have h4 := runItems_from P.sed P.dflt (overlaysOn P e.path) e.nodes []
  rw [List.nil_append] at h4
  have hid : ∀ x : Res Err (List Node), (x >>= fun out => Res.ok ([] ++ out)) = x := by intro x; cases x <;> rfl
  rw [hid] at h4
  rw [← h3, ← show ([] : List Node).length = 0 from rfl, ← h4]
  exact this.symm

/-- The file's run in terms of the specification. -/
theorem fileResult_iff (P : Setup) (files : List Written) (i : Nat) (e : Written) (he : files[i]? = some e)
    (h1 : e.overlays = Spec.common P ++ gets P e.path)
    (h2 : e.documents = ownDocs P e.path) (h3 : e.nodes = contents P e.path) (docs : List Node) :
    resultFor (P.run files) i = .ok docs ↔ FileResult P e.path docs := by
  rw [resultFor_eq P files i e he h1 h2 h3, applyEach_ok]
  unfold FileResult
  simp only [Nat.zero_add]


theorem filterMap_range_eq {α β : Type} (F : Nat → Option β) (h : α → Option β) (l : List α)
    (hF : ∀ i (hi : i < l.length), F i = h l[i]) : (List.range l.length).filterMap F = l.filterMap h := by
  induction l using snocInduction with
  | h0 => rfl
  | h1 l x ih =>
    rw [List.length_append, List.length_singleton, List.range_succ, List.filterMap_append, List.filterMap_append, ih]
    · have := hF l.length (by simp)
      simp only [List.getElem_append_right (Nat.le_refl _), Nat.sub_self, List.getElem_cons_zero] at this
      simp only [List.filterMap_cons, List.filterMap_nil, this]
    · intro i hi
      rw [hF i (by simp; omega)]
      simp [List.getElem_append_left hi]

/-- **C55** the whole run: whatever the schedule, if it succeeds then each
input has been through its overlays in order, and what has been written is, for each
input that is not rendered empty, its rendering under its output name, once. -/
theorem C55_end_to_end (P : Setup) (h : Sound P) (hr : Readable P) : ∃ N, ∀ fuel, N ≤ fuel →
    ∃ files, P.getInstructions fuel = .done files ∧
    ∀ s, Reach (P.run files) s → Returned s none →
      ∃ (result : Str → List Node) (text : Str → Option Str),
        (∀ p ∈ inputs P, FileResult P p (result p) ∧ rendering P.emit P.style (result p) = .ok (text p)) ∧
        (s.log.map (fun o => (o.name, o.text))).Perm
          ((inputs P).filterMap (fun p => (text p).map (fun t => (nameFor P p, t)))) := by
  obtain ⟨N, hN⟩ := C55_inputs P h
  refine ⟨N, fun fuel hf => ?_⟩
  obtain ⟨files, hg, hp, hall⟩ := (hN fuel hf).1 hr
  refine ⟨files, hg, fun s hs hret => ?_⟩
  obtain ⟨hproc, hlog⟩ := C48_exactly_once (P.run files) s hs hret
  have hlen : (P.run files).files.length = files.length := by simp [Setup.run]
  have hnd : (files.map (·.path)).Nodup := by rw [hp]; exact firsts_nodup _
  let docsOf (e : Written) : List Node :=
    match applyEach P.sed P.dflt (overlaysOn P e.path) 0 (contents P e.path) with
    | .ok d => d
    | _ => []
  let textOf (e : Written) : Option Str :=
    match rendering P.emit P.style (docsOf e) with
    | .ok t => t
    | _ => none
  let at' (p : Str) : Written := (files.find? (fun e => e.path = p)).getD { overlays := [], documents := [] }
  have hat : ∀ e ∈ files, at' e.path = e := by
    clear hall hg hproc hlog hs hret hlen hp
    intro e he
    show (files.find? _).getD _ = e
    have : files.find? (fun x => decide (x.path = e.path)) = some e := by
      induction files with
      | nil => cases he
      | cons x xs ih =>
        simp only [List.map_cons, List.nodup_cons] at hnd
        by_cases hx : x.path = e.path
        · rcases List.mem_cons.1 he with rfl | he
          · simp
          · exact absurd (List.mem_map.2 ⟨e, he, hx.symm⟩) hnd.1
        · rcases List.mem_cons.1 he with rfl | he
          · exact absurd rfl hx
          · rw [List.find?_cons_of_neg (by simpa using hx)]
            exact ih hnd.2 he
    rw [this]; rfl
  have hres : ∀ i (hi : i < files.length), resultFor (P.run files) i =
      applyEach P.sed P.dflt (overlaysOn P files[i].path) 0 (contents P files[i].path) := by
    intro i hi
    obtain ⟨a1, a2, a3, _⟩ := hall _ (List.getElem_mem hi)
    exact resultFor_eq P files i _ (List.getElem?_eq_getElem hi) a1 a2 a3
  have hok : ∀ e ∈ files, ∃ docs t, applyEach P.sed P.dflt (overlaysOn P e.path) 0 (contents P e.path) = .ok docs ∧
      rendering P.emit P.style docs = .ok t ∧ docsOf e = docs ∧ textOf e = t := by
    intro e he
    obtain ⟨i, hi, rfl⟩ := List.mem_iff_getElem.1 he
    obtain ⟨docs, t, h1, h2⟩ := hproc i (by rw [hlen]; exact hi)
    rw [hres i hi] at h1
    have h2 : rendering P.emit P.style docs = .ok t := h2
    have hd : docsOf files[i] = docs := by
      show (match applyEach P.sed P.dflt (overlaysOn P files[i].path) 0 (contents P files[i].path) with | .ok d => d | _ => []) = _
      rw [h1]
    refine ⟨docs, t, h1, h2, hd, ?_⟩
    show (match rendering P.emit P.style (docsOf files[i]) with | .ok t => t | _ => none) = _
    rw [hd, h2]
  refine ⟨fun p => docsOf (at' p), fun p => textOf (at' p), ?_, ?_⟩
  · intro p hpp
    rw [← hp] at hpp
    obtain ⟨e, he, rfl⟩ := List.mem_map.1 hpp
    simp only [hat e he]
    obtain ⟨docs, t, h1, h2, h3, h4⟩ := hok e he
    obtain ⟨a1, a2, a3, _⟩ := hall e he
    rw [h3, h4]
    refine ⟨?_, h2⟩
    have := (applyEach_ok _ _ _ _ _ _).1 h1
    simp only [Nat.zero_add] at this
    exact this
  · refine (hlog.map _).trans (List.Perm.of_eq ?_)
    unfold expected
    rw [hlen, List.map_filterMap, ← hp, List.filterMap_map]
    apply filterMap_range_eq
    intro i hi
    have he : files[i] ∈ files := List.getElem_mem _
    obtain ⟨docs, t, h1, h2, h3, h4⟩ := hok _ he
    have hfile := run_file P files i _ (List.getElem?_eq_getElem hi)
    have hrun : resultFor (P.run files) i = .ok docs := by rw [hres i hi]; exact h1
    have hren : rendering (P.run files).emit (P.run files).style docs = .ok t := h2
    simp only [Function.comp, hat _ he, h4]
    unfold outputFor
    rw [hrun]
    simp only
    rw [hren]
    cases t with
    | none => rfl
    | some t =>
      simp only [Option.map_some]
      rw [hfile]
      have := (hall _ he).2.2.2
      rw [← this]
      rfl

/-- **C55** at any moment, also of a run that will fail: what has been handed
out for writing so far are results of inputs, under their names, at most once each. -/
theorem C55_only_results (P : Setup) (h : Sound P) (hr : Readable P) : ∃ N, ∀ fuel, N ≤ fuel →
    ∃ files, P.getInstructions fuel = .done files ∧
    ∀ s, Reach (P.run files) s →
      ∃ ps : List Str, ps.Nodup ∧ (∀ p ∈ ps, p ∈ inputs P) ∧
        List.Forall₂ (fun p o => o.name = nameFor P p ∧
          ∃ docs, FileResult P p docs ∧ rendering P.emit P.style docs = .ok (some o.text)) ps s.log := by
  obtain ⟨N, hN⟩ := C55_inputs P h
  refine ⟨N, fun fuel hf => ?_⟩
  obtain ⟨files, hg, hp, hall⟩ := (hN fuel hf).1 hr
  refine ⟨files, hg, fun s hs => ?_⟩
  have hlen : (P.run files).files.length = files.length := by simp [Setup.run]
  have hnd : (files.map (·.path)).Nodup := by rw [hp]; exact firsts_nodup _
  have hlog := reach_log hs
  have htn := (List.nodup_append.1 (reach_sent hs).1).1
  have hlt : ∀ i ∈ s.taken, i < files.length := by
    intro i hi
    rw [← hlen]
    exact (reach_docs hs i (List.mem_append_left _ hi)).1
  rw [hlog]
  generalize s.taken = tk at htn hlt
  clear hlog hs
  let path (i : Nat) : Str := ((files[i]?).map (·.path)).getD []
  have hpath : ∀ i (hi : i < files.length), path i = files[i].path := by
    intro i hi
    show ((files[i]?).map (·.path)).getD [] = _
    rw [List.getElem?_eq_getElem hi]; rfl
  refine ⟨(tk.filter (fun i => (outputFor (P.run files) i).isSome)).map path, ?_, ?_, ?_⟩
  · refine List.Nodup.map_on ?_ (htn.sublist List.filter_sublist)
    intro i hi j hj hij
    have hi := hlt i (List.mem_filter.1 hi).1
    have hj := hlt j (List.mem_filter.1 hj).1
    rw [hpath i hi, hpath j hj] at hij
    have := (List.nodup_iff_injective_getElem.1 hnd) (a₁ := ⟨i, by simpa using hi⟩) (a₂ := ⟨j, by simpa using hj⟩) (by simpa using hij)
    simpa using this
  · intro p hpm
    obtain ⟨i, hi, rfl⟩ := List.mem_map.1 hpm
    have hi := hlt i (List.mem_filter.1 hi).1
    rw [hpath i hi, ← hp]
    exact List.mem_map.2 ⟨_, List.getElem_mem _, rfl⟩
  · clear htn
    induction tk with
    | nil => exact .nil
    | cons i is ih =>
      have ih := ih (fun j hj => hlt j (List.mem_cons_of_mem _ hj))
      have hi := hlt i List.mem_cons_self
      cases ho : outputFor (P.run files) i with
      | none => simpa [ho] using ih
      | some o =>
        simp only [List.filter_cons, ho, Option.isSome_some, if_true, List.map_cons, List.filterMap_cons]
        refine .cons ?_ ih
        have he : files[i] ∈ files := List.getElem_mem _
        obtain ⟨a1, a2, a3, a4⟩ := hall _ he
        have hfile := run_file P files i _ (List.getElem?_eq_getElem hi)
        unfold outputFor at ho
        rw [hfile] at ho
        split at ho
        · rename_i docs hdocs
          split at ho
          · rename_i t ht
            cases ho
            refine ⟨?_, docs, ?_, ht⟩
            · rw [hpath i hi, ← a4]; rfl
            · rw [hpath i hi]
              exact (fileResult_iff P files i _ (List.getElem?_eq_getElem hi) a1 a2 a3 docs).1 hdocs
          · cases ho
        · cases ho

/-- **C55** success: if the overlays of every input apply, every result is
rendered and no output fails, then every execution ends, and ends without an error. -/
theorem C55_succeeds (P : Setup) (h : Sound P) (hr : Readable P)
    (hok : ∀ p ∈ inputs P, ∃ docs t, FileResult P p docs ∧ rendering P.emit P.style docs = .ok t)
    (hw : ∀ log o, P.writeFails log o = false) : ∃ N, ∀ fuel, N ≤ fuel →
    ∃ files, P.getInstructions fuel = .done files ∧
    (¬ ∃ f : Nat → State, ∀ k, RStep (P.run files) (f k) (f (k + 1))) ∧
    ∀ s, Reach (P.run files) s → (∀ s', ¬ RStep (P.run files) s s') → Returned s none := by
  obtain ⟨N, hN⟩ := C55_inputs P h
  refine ⟨N, fun fuel hf => ?_⟩
  obtain ⟨files, hg, hp, hall⟩ := (hN fuel hf).1 hr
  refine ⟨files, hg, C47_no_endless_run _, fun s hs hend => ?_⟩
  have hlen : (P.run files).files.length = files.length := by simp [Setup.run]
  have hproc : ∀ i, i < (P.run files).files.length → Processes (P.run files) i := by
    intro i hi
    have hi : i < files.length := by rw [← hlen]; exact hi
    have he : files[i] ∈ files := List.getElem_mem _
    obtain ⟨docs, t, h1, h2⟩ := hok files[i].path (by rw [← hp]; exact List.mem_map.2 ⟨_, he, rfl⟩)
    obtain ⟨a1, a2, a3, _⟩ := hall _ he
    refine ⟨docs, t, ?_, h2⟩
    exact (fileResult_iff P files i _ (List.getElem?_eq_getElem hi) a1 a2 a3 docs).2 h1
  obtain ⟨r, hret⟩ := C47_finishes (P.run files) (fun i hi => not_crashes (hproc i hi)) s hs hend
  have := (C48_succeeds (P.run files) hproc (fun log o _ => hw log o) s hs).2 r hret
  rw [this] at hret
  exact hret

/-- **C55** and at no moment of any execution is there an error or a crash. -/
theorem C55_no_error (P : Setup) (h : Sound P) (hr : Readable P)
    (hok : ∀ p ∈ inputs P, ∃ docs t, FileResult P p docs ∧ rendering P.emit P.style docs = .ok t)
    (hw : ∀ log o, P.writeFails log o = false) : ∃ N, ∀ fuel, N ≤ fuel →
    ∃ files, P.getInstructions fuel = .done files ∧
    ∀ s, Reach (P.run files) s → s.crashed = false ∧ ∀ r, Returned s r → r = none := by
  obtain ⟨N, hN⟩ := C55_inputs P h
  refine ⟨N, fun fuel hf => ?_⟩
  obtain ⟨files, hg, hp, hall⟩ := (hN fuel hf).1 hr
  have hlen : (P.run files).files.length = files.length := by simp [Setup.run]
  refine ⟨files, hg, fun s hs => C48_succeeds (P.run files) ?_ (fun log o _ => hw log o) s hs⟩
  intro i hi
  have hi : i < files.length := by rw [← hlen]; exact hi
  have he : files[i] ∈ files := List.getElem_mem _
  obtain ⟨docs, t, h1, h2⟩ := hok files[i].path (by rw [← hp]; exact List.mem_map.2 ⟨_, he, rfl⟩)
  obtain ⟨a1, a2, a3, _⟩ := hall _ he
  refine ⟨docs, t, ?_, h2⟩
  exact (fileResult_iff P files i _ (List.getElem?_eq_getElem hi) a1 a2 a3 docs).2 h1

theorem Sent.andThen_stops {a b : Sent} : (a.andThen b).2 = true ↔ a.2 = true ∨ b.2 = true := by
  unfold Sent.andThen
  split
  · rename_i h; simp [h]
  · rename_i h; simp at h; simp [h]

theorem sendOverlays_stops (obj : Nat → Option DOverlay) (i : Nat) (ps : List Nat) (h : (sendOverlays obj i ps).2 = true) :
    none ∈ ps.map obj := by
  induction ps with
  | nil => cases h
  | cons p ps ih =>
    rw [sendOverlays] at h
    cases ho : obj p with
    | none => simp [ho]
    | some o =>
      rw [ho, Sent.andThen_stops] at h
      rcases h with h | h
      · simp at h
      · exact List.mem_cons_of_mem _ (ih h)

theorem sendDocuments_stops (i : Nat) (ds : List (Option DocObj)) (h : (sendDocuments i ds).2 = true) : none ∈ ds := by
  induction ds with
  | nil => cases h
  | cons d ds ih =>
    cases d with
    | none => simp
    | some d =>
      rw [sendDocuments, Sent.andThen_stops] at h
      rcases h with h | h
      · simp at h
      · exact List.mem_cons_of_mem _ (ih h)

theorem sendFrom_stops (obj : Nat → Option DOverlay) (e : Written) (L : Nat → List (Option DOverlay))
    (hL : ∀ i, L i = (e.overlays.map obj).filter (fun x => decide (ItemSelects x i)) ++
      e.documents.flatMap (fun d => itemsFor i (d.map (DocObj.deref obj)))) (ns : List Node) : ∀ i, (e.sendFrom obj i ns).2 = true →
    ∃ k d, ns[k]? = some d ∧ none ∈ L (i + k) := by
  induction ns with
  | nil => intro i h; cases h
  | cons n ns ih =>
    intro i h
    rw [Entry.sendFrom, Sent.andThen_stops, Sent.andThen_stops] at h
    rcases h with (h | h) | h
    · refine ⟨0, n, rfl, ?_⟩
      rw [Nat.add_zero, hL]
      refine List.mem_append_left _ (List.mem_filter.2 ⟨sendOverlays_stops _ _ _ h, ?_⟩)
      simp [ItemSelects]
    · refine ⟨0, n, rfl, ?_⟩
      rw [Nat.add_zero, hL]
      exact List.mem_append_right _ (List.mem_flatMap.2 ⟨none, sendDocuments_stops _ _ h, by simp [itemsFor]⟩)
    · obtain ⟨k, d, h1, h2⟩ := ih (i + 1) h
      exact ⟨k + 1, d, h1, by rwa [show i + (k + 1) = i + 1 + k by omega]⟩

theorem applyEach_panic (E : Sed) (dflt : Str) (L : Nat → List (Option DOverlay)) (ns : List Node) : ∀ i : Nat,
    applyEach E dflt L i ns = .panic → ∃ k d, ns[k]? = some d ∧ applyItems E dflt (L (i + k)) d = .panic := by
  induction ns with
  | nil => intro i h; cases h
  | cons n ns ih =>
    intro i h
    rw [applyEach] at h
    cases h1 : applyItems E dflt (L i) n with
    | panic => exact ⟨0, n, rfl, h1⟩
    | err e => rw [h1] at h; cases h
    | ok d =>
      rw [h1, Res.bind_ok] at h
      cases h2 : applyEach E dflt L (i + 1) ns with
      | err e => rw [h2] at h; cases h
      | ok ds => rw [h2] at h; cases h
      | panic =>
        obtain ⟨k, d, h3, h4⟩ := ih (i + 1) h2
        exact ⟨k + 1, d, h3, by rwa [show i + (k + 1) = i + 1 + k by omega]⟩

/-- **C55** and a crash, under whatever schedule, comes from an input that can make it. -/
theorem C55_crash (P : Setup) (h : Sound P) (hr : Readable P) : ∃ N, ∀ fuel, N ≤ fuel →
    ∃ files, P.getInstructions fuel = .done files ∧
    ∀ s, Reach (P.run files) s → s.crashed = true → ∃ p ∈ inputs P, MayCrash P p := by
  obtain ⟨N, hN⟩ := C55_inputs P h
  refine ⟨N, fun fuel hf => ?_⟩
  obtain ⟨files, hg, hp, hall⟩ := (hN fuel hf).1 hr
  have hlen : (P.run files).files.length = files.length := by simp [Setup.run]
  refine ⟨files, hg, fun s hs hc => ?_⟩
  obtain ⟨i, hi, hcr⟩ := reach_crashed hs hc
  have hi : i < files.length := by rw [← hlen]; exact hi
  have he : files[i] ∈ files := List.getElem_mem _
  have hget := List.getElem?_eq_getElem hi
  obtain ⟨a1, a2, a3, _⟩ := hall _ he
  refine ⟨files[i].path, by rw [← hp]; exact List.mem_map.2 ⟨_, he, rfl⟩, ?_⟩
  rcases hcr with hcr | ⟨docs, hd, hr⟩ | ⟨hst, _⟩
  · rw [resultFor_eq P files i _ hget a1 a2 a3] at hcr
    obtain ⟨k, d, h1, h2⟩ := applyEach_panic _ _ _ _ _ hcr
    rw [Nat.zero_add] at h2
    exact .inl ⟨k, d, h1, .inr h2⟩
  · exact .inr ⟨docs, (fileResult_iff P files i _ hget a1 a2 a3 docs).1 hd, hr⟩
  · have hst : (files[i].sendFrom P.obj 0 files[i].nodes).2 = true := by
      have : P.sent files i = files[i].sendFrom P.obj 0 files[i].nodes := by unfold Setup.sent; rw [hget]
      rw [← this]
      exact hst
    obtain ⟨k, d, h1, h2⟩ := sendFrom_stops P.obj files[i] (overlaysOn P files[i].path) (by
      intro i
      unfold overlaysOn
      rw [a1, a2]) _ _ hst
    rw [Nat.zero_add] at h2
    exact .inl ⟨k, d, by rw [← a3]; exact h1, .inl h2⟩

/-! A concrete case: the directory `d` with two files below it and `x.yaml`, which is
named twice, the second time with an outputPath; a common overlay, an overlay of the
command line, and own overlays. -/

/-- The overlay that sets the value under `k` to `v`. -/
def Ex.setting (k v : Str) (index : Option (List Int) := none) : DOverlay :=
  { base := { action := .replace, query := [{ str := k, find := fun n => findNames [k] n }], value := .mk { kind := .scalar, tag := c!"!!str", value := v } [], documentIndex := index } }

def Ex.setup : Setup where
  sed := Ex.noSed
  dflt := c!"%v"
  emit := fun b n => .ok ((if b then [] else c!"---\n") ++ (n.content.flatMap (·.content)).flatMap (fun c => ' ' :: c.hd.value))
  style := []
  outDir := c!"/o"
  writeFails := fun _ _ => false
  fs := Ex.someFs
  dir := c!"/w"
  read1 := fun p => some [(Ex.dc (Ex.mp [Ex.sc c!"k", Ex.sc p])).label]
  read2 := fun _ => none
  grow := fun c n => if 2 * c < n then n else 2 * c
  obj := fun p => match p with
    | 0 => some (Ex.setting c!"k" c!"common")
    | 1 => some (Ex.setting c!"k" c!"cli")
    | 2 => some (Ex.setting c!"k" c!"d")
    | 3 => some (Ex.setting c!"k" c!"x" (some [1]))
    | _ => none
  docObj := fun _ => some { overlays := [3] }
  instr := {
    ov := { next := 3, cell := fun a i => match a, i with
      | 0, 0 => some 0
      | 1, 0 => some 2
      | 2, 0 => some 3
      | _, _ => none }
    dc := { next := 1, cell := fun a i => match a, i with
      | 0, 0 => some 0
      | _, _ => none }
    common := ⟨0, 1, 1⟩
    entries := [
      { path := c!"d", overlays := ⟨1, 1, 1⟩, documents := nilSlice, outputPath := c!"o" },
      { path := c!"x.yaml", overlays := ⟨2, 1, 1⟩, documents := nilSlice },
      { path := c!"x.yaml", overlays := nilSlice, documents := ⟨0, 1, 1⟩, outputPath := c!"y.yaml" }] }
  adHocPath := []
  adHoc := some 1
  removeComments := false

example : inputs Ex.setup = [c!"/w/x.yaml", c!"/w/d/a.yaml", c!"/w/d/s/b.yml"] := by decide
example : (inputs Ex.setup).map (nameFor Ex.setup) = [c!"/o/y.yaml", c!"/o/o/a.yaml", c!"/o/o/b.yml"] := by decide
example : (inputs Ex.setup).map (fun p => (overlaysOn Ex.setup p 0).map (fun o => o.map (fun o => o.base.value.hd.value))) =
    [[some c!"common", some c!"cli", some c!"x"], [some c!"common", some c!"cli", some c!"d"], [some c!"common", some c!"cli", some c!"d"]] := by decide

theorem Ex.setup_sound : Sound Ex.setup where
  dir := by right; decide
  fs := Ex.someFs_consistent
  grow := by
    intro c n
    show n ≤ if 2 * c < n then n else 2 * c
    split <;> omega
  common := by
    refine ⟨?_, rfl⟩
    unfold Slice.Valid
    decide
  overlays := by
    intro e he
    simp only [Ex.setup, List.mem_cons, List.not_mem_nil, or_false] at he
    rcases he with rfl | rfl | rfl <;> refine ⟨?_, rfl⟩ <;> unfold Slice.Valid <;> decide
  documents := by
    intro e he
    simp only [Ex.setup, List.mem_cons, List.not_mem_nil, or_false] at he
    rcases he with rfl | rfl | rfl <;> refine ⟨?_, rfl⟩ <;> unfold Slice.Valid <;> decide

theorem Ex.setup_readable : Readable Ex.setup := by
  constructor
  · apply Ex.someFs_read _ (fun _ => rfl)
    intro y hy
    simp only [given, Ex.setup, List.map_cons, List.map_nil, List.mem_cons, List.not_mem_nil, or_false] at hy
    rcases hy with rfl | rfl | rfl
    · exact .inl ⟨rfl, (extOf_iff _).1 (by decide)⟩
    · right; decide
    · right; decide
  · rw [show adHocGiven Ex.setup = [] from rfl]
    exact ⟨by simp [Refused, below], by simp [LinkedDir, below], by simp [expand]⟩

/-- The hypotheses of `C55_succeeds` are met, with these texts. -/
example : ∀ p ∈ inputs Ex.setup, ∃ docs, FileResult Ex.setup p docs ∧
    rendering Ex.setup.emit Ex.setup.style docs = .ok (some (if p = c!"/w/x.yaml" then c!"---\n k x" else c!"---\n k d")) := by
  let out (p : Str) : Node :=
    match applyItems Ex.setup.sed Ex.setup.dflt (overlaysOn Ex.setup p 0) (Ex.dc (Ex.mp [Ex.sc c!"k", Ex.sc p])).label with
    | .ok d => d
    | _ => .mk {} []
  have one : ∀ p, contents Ex.setup p = [(Ex.dc (Ex.mp [Ex.sc c!"k", Ex.sc p])).label] →
      applyItems Ex.setup.sed Ex.setup.dflt (overlaysOn Ex.setup p 0)
        (Ex.dc (Ex.mp [Ex.sc c!"k", Ex.sc p])).label = .ok (out p) → FileResult Ex.setup p [out p] := by
    intro p hc h
    refine ⟨by rw [hc]; rfl, fun i d hd => ?_⟩
    rw [hc] at hd
    match i with
    | 0 => cases hd; exact ⟨out p, rfl, h⟩
    | i + 1 => cases hd
  intro p hp
  have : inputs Ex.setup = [c!"/w/x.yaml", c!"/w/d/a.yaml", c!"/w/d/s/b.yml"] := by decide
  rw [this] at hp
  simp only [List.mem_cons, List.not_mem_nil, or_false] at hp
  rcases hp with rfl | rfl | rfl
  · exact ⟨_, one _ (by decide +kernel) (by decide +kernel), by decide +kernel⟩
  · exact ⟨_, one _ (by decide +kernel) (by decide +kernel), by decide +kernel⟩
  · exact ⟨_, one _ (by decide +kernel) (by decide +kernel), by decide +kernel⟩

end Yot
