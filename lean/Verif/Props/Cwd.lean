import Verif.Props.Concern
import Verif.Props.Startup
/-
C100: the directory in which yot is started matters only for relative names.
-/
namespace Yot
open Spec

theorem isAbs_found (fs : Fs) (p q : Str) (hp : isAbs p = true) (h : q ∈ getFileNames fs p) : isAbs q = true := by
  obtain ⟨_, cs, _, _, _, _, rfl, _⟩ := (C36_files _ _ _).1 h
  have key : ∀ (cs : List Str) (q : Str), isAbs q = true → isAbs (cs.foldl (fun p c => pathJoin [p, c]) q) = true := by
    intro cs
    induction cs with
    | nil => intro q h; exact h
    | cons c cs ih => intro q h; exact ih _ (isAbs_pathJoin q c h)
  exact key cs p hp

/-- With absolute names on the command line, all paths at which the program looks are absolute. -/
theorem Spec.NamesAbsolute.looksAt {M : Machine} (h : NamesAbsolute M) (p : Str) (hl : LooksAt M.fs M.dir (PathGiven M) p) : isAbs p = true := by
  have hr : ∀ q, isAbs q = true → isAbs (resolvePath M.dir q) = true := by
    intro q hq
    unfold resolvePath
    rw [if_pos hq]; exact hq
  induction hl with
  | given p hp hd =>
    rcases hp with ⟨i, y, hi, hy, rfl⟩ | ⟨hne, rfl⟩
    · have hf : M.instructionsFile ≠ [] := by
        intro h0
        rcases hi with ⟨_, rfl⟩ | ⟨h1, _⟩
        · cases hy
        · exact h1 h0
      have ha := h.instructions.resolve_left hf
      have hdir : isAbs M.dir = true := by
        unfold Machine.dir
        rw [if_neg hf, if_pos ha]
        exact isAbs_dirOf _ (by rw [isAbs_clean]; exact ha)
      unfold resolvePath
      split
      · assumption
      · exact isAbs_pathJoin _ _ hdir
    · exact hr _ ((h.path.resolve_left hne).resolve_left hd)
  | found p q _ _ hq ih => exact hr _ (isAbs_found _ _ _ ih hq)

theorem Spec.StartedIn.sameFiles {M M' : Machine} (h : StartedIn M M') (ha : NamesAbsolute M) : SameFiles M M' := by
  obtain ⟨c, fs, rfl, hfs⟩ := h
  refine ⟨⟨M.disk, fs, c, rfl⟩, ?_, ?_, fun p hp => hfs p (ha.looksAt p hp)⟩
  · unfold Machine.dir
    rcases ha.instructions with h0 | h1
    · simp only [h0, if_pos]; rfl
    · by_cases h0 : M.instructionsFile = []
      · rw [h0] at h1; cases h1
      · simp only [h0, h1, if_neg, not_false_eq_true, if_pos]
  · intro f hf
    have habs : isAbs f = true := by
      cases hf with
      | instructions hi => exact ha.instructions.resolve_left hi
      | values vs f hi hv hm hd => exact (ha.values vs hv f hm).resolve_left hd
      | input p h1 _ => exact ha.looksAt _ h1
    simp only [Machine.locate, habs, if_pos]

/-- C100. If the names on the command line are absolute, it does not matter in which directory the
program is started: it ends in the same ways, with the same outputs under the same names. -/
theorem C100_ends {M M' : Machine} (h : StartedIn M M') (ha : NamesAbsolute M) (e : Exit) (log : List Out) : M'.Ends e log ↔ M.Ends e log :=
  ⟨(h.sameFiles ha).symm.ends, (h.sameFiles ha).ends⟩

/-- C100. The same for what it asks of the operating system. -/
theorem C100_leaves {M M' : Machine} (h : StartedIn M M') (ha : NamesAbsolute M) (e : Exit) (es : List Effect) : M'.Leaves e es ↔ M.Leaves e es := by
  have hs : M'.stdout = M.stdout := by obtain ⟨d, fs, rfl, _⟩ := h; rfl
  simp only [Machine.Leaves, C100_ends h ha, hs]

theorem outputFor_name {R : Run} {i : Nat} {o : Out} (h : outputFor R i = some o) : ∃ y : YamlFile, o.name = outputName R.outDir y := by
  unfold outputFor at h
  split at h
  · split at h
    · cases h; exact ⟨_, rfl⟩
    · cases h
  · cases h

theorem reach_names {R : Run} {s : State} (h : Reach R s) (ha : isAbs R.outDir = true) (o : Out) (ho : o ∈ s.log) : isAbs o.name = true := by
  rw [reach_log h] at ho
  obtain ⟨i, _, hi⟩ := List.mem_filterMap.1 ho
  obtain ⟨y, hy⟩ := outputFor_name hi
  rw [hy]
  unfold outputName
  split
  · assumption
  · exact isAbs_pathJoin _ _ ha

/-- With an absolute output directory the outputs have absolute names. -/
theorem ends_names {M : Machine} (ha : isAbs (M.text c!"outputDirectory") = true) {e : Exit} {log : List Out} (h : M.Ends e log) :
    ∀ o ∈ log, isAbs o.name = true := by
  cases h with
  | ran i obj docObj instr adHoc files s r _ _ _ _ _ h6 _ => exact reach_names h6 ha
  | crashed i obj docObj instr adHoc files s _ _ _ _ _ h6 _ => exact reach_names h6 ha
  | _ => intro o ho; cases ho

/-- What an effect is about: the name of the file, if it is about one. -/
def Effect.name : Effect → Option Str
  | .create n => some n
  | .append n _ => some n
  | .print _ => none

theorem effectsOf_names (b : Bool) (o : Out) (pieces : List Str) : ∀ x ∈ effectsOf b o pieces, ∀ n, x.name = some n → n = o.name := by
  intro x hx n hn
  unfold effectsOf at hx
  split at hx
  · obtain ⟨t, _, rfl⟩ := List.mem_map.1 hx; cases hn
  · rcases List.mem_cons.1 hx with rfl | hx
    · cases hn; rfl
    · rcases List.mem_cons.1 hx with rfl | hx
      · cases hn
      · obtain ⟨t, _, rfl⟩ := List.mem_map.1 hx; cases hn; rfl

theorem allWritten_names {b : Bool} {log : List Out} {es : List Effect} (h : AllWritten b log es) :
    ∀ x ∈ es, ∀ n, x.name = some n → ∃ o ∈ log, n = o.name := by
  induction h with
  | nil => intro x hx; cases hx
  | snoc log es o pieces _ _ ih =>
    intro x hx n hn
    rcases List.mem_append.1 hx with hx | hx
    · obtain ⟨o', h1, h2⟩ := ih x hx n hn
      exact ⟨o', List.mem_append_left _ h1, h2⟩
    · exact ⟨o, by simp, effectsOf_names b o pieces x hx n hn⟩

theorem underway_names {b : Bool} {log : List Out} {es : List Effect} (h : Underway b log es) :
    ∀ x ∈ es, ∀ n, x.name = some n → ∃ o ∈ log, n = o.name := by
  rcases h with h | ⟨pre, o, es0, pieces, es1, rfl, h0, _, hp, rfl⟩
  · exact allWritten_names h
  · intro x hx n hn
    rcases List.mem_append.1 hx with hx | hx
    · obtain ⟨o', h1, h2⟩ := allWritten_names h0 x hx n hn
      exact ⟨o', List.mem_append_left _ h1, h2⟩
    · exact ⟨o, by simp, effectsOf_names b o pieces x (hp.subset hx) n hn⟩

theorem diskAfter_same (loc loc' : Str → Str) : ∀ (es : List Effect) (d : Str → Option Str),
    (∀ x ∈ es, ∀ n, x.name = some n → loc' n = loc n) → diskAfter loc' d es = diskAfter loc d es
  | [], _, _ => rfl
  | x :: es, d, h => by
    have hx : x.run loc' d = x.run loc d := by
      cases x with
      | create n => simp only [Effect.run, h _ (List.mem_cons_self ..) n rfl]
      | append n t => simp only [Effect.run, h _ (List.mem_cons_self ..) n rfl]
      | print t => rfl
    rw [diskAfter, diskAfter, hx]
    exact diskAfter_same loc loc' es _ (fun y hy => h y (List.mem_cons_of_mem _ hy))

/-- C100. If the output directory is absolute too, the files are the same in the end. -/
theorem C100_files {M M' : Machine} (h : StartedIn M M') (ha : NamesAbsolute M) (ho : isAbs (M.text c!"outputDirectory") = true)
    (e : Exit) (es : List Effect) (hl : M.Leaves e es) :
    M'.Leaves e es ∧ diskAfter M'.locate M'.disk es = diskAfter M.locate M.disk es := by
  refine ⟨(C100_leaves h ha e es).2 hl, ?_⟩
  obtain ⟨log, he, hw⟩ := hl
  have hn := ends_names ho he
  have hu : Underway M.stdout log es := by
    split at hw
    · exact .inl hw
    · exact hw
  obtain ⟨c, fs, rfl, _⟩ := h
  refine diskAfter_same M.locate _ es M.disk (fun x hx n hxn => ?_)
  obtain ⟨o, h1, rfl⟩ := underway_names hu x hx n hxn
  simp only [Machine.locate, hn o h1, if_pos]

/-! ### An example -/

namespace Ex

/-- `yot -i /w/i.yaml -o /o`, started in `c`. -/
def startedIn (c : Str) : Machine := { machine with instructionsFile := c!"/w/i.yaml", cwd := c }

/-- It can be started anywhere. -/
example (c : Str) (e : Exit) (es : List Effect) (h : (startedIn c!"/w").Leaves e es) :
    (startedIn c).Leaves e es ∧ diskAfter (startedIn c).locate (startedIn c).disk es = diskAfter (startedIn c!"/w").locate (startedIn c!"/w").disk es :=
  C100_files (M := startedIn c!"/w") (M' := startedIn c) ⟨c, machine.fs, rfl, fun _ _ => rfl⟩
    ⟨.inr (by decide), fun _ h => (by cases h), .inl rfl⟩ (by decide) e es h

/-- With a relative name it has to be started in `/w`: elsewhere it fails. -/
example (e : Exit) (log : List Out) (h : Machine.Ends { machine with cwd := c!"/tmp" } e log) : e ≠ .success ∧ log = [] :=
  nothing_written { machine with cwd := c!"/tmp" } (.inr (fun i hi => by cases hi)) e log h

end Ex

end Yot
