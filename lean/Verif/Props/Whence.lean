import Verif.Spec.Whence
import Verif.Props.Startup
/-
C101: where the instructions come from does not matter.
-/
namespace Yot
open Spec

theorem dir_eq_locate (M : Machine) (hc : M.cwd ≠ []) (h : M.instructionsFile ≠ []) : M.dir = dirOf (M.locate M.instructionsFile) := by
  unfold Machine.dir Machine.locate
  rw [if_neg h]
  split
  · rfl
  · simp [pathJoin, hc, h, joinWith]

theorem locate_name (d : List Str) (x : Str) (hd : ∀ c ∈ d, IsName c) (hx : IsName x) : clean (absPath d ++ '/' :: x) = absPath (d ++ [x]) := by
  have h := pathJoin_name d x hd hx
  have h0 : absPath d ≠ [] := by simp [absPath]
  rw [← h]
  simp [pathJoin, h0, hx.1, joinWith]

theorem same_directory {M : Machine} {f f' : Str} (hc : M.cwd ≠ []) (hf : f ≠ []) (hf' : f' ≠ []) (h : SameDirectory M f f')
    (v v' : Option (List Str)) : (withInstructions M f v).dir = (withInstructions M f' v').dir := by
  obtain ⟨d, b, b', hn, h1, h2⟩ := h
  rw [dir_eq_locate (withInstructions M f v) hc hf, dir_eq_locate (withInstructions M f' v') hc hf']
  have e1 : (withInstructions M f v).locate (withInstructions M f v).instructionsFile = absPath (d ++ [b]) := h1
  have e2 : (withInstructions M f' v').locate (withInstructions M f' v').instructionsFile = absPath (d ++ [b']) := h2
  rw [e1, e2, dirOf_absPath d b (fun c hcm => hn c (by
    rcases List.mem_append.1 hcm with h | h
    · exact List.mem_append_left _ h
    · rw [List.mem_singleton.1 h]; simp)),
    dirOf_absPath d b' (fun c hcm => hn c (by
    rcases List.mem_append.1 hcm with h | h
    · exact List.mem_append_left _ h
    · rw [List.mem_singleton.1 h]; simp))]

theorem ends_of_text {M : Machine} {f f' : Str} {v v' : Option (List Str)} (hf : f ≠ []) (hf' : f' ≠ [])
    (hd : (withInstructions M f v).dir = (withInstructions M f' v').dir)
    (ht : (withInstructions M f v).instructionsText = (withInstructions M f' v').instructionsText)
    {e : Exit} {log : List Out} (he : (withInstructions M f v).Ends e log) : (withInstructions M f' v').Ends e log := by
  have hi : (withInstructions M f' v').instructions = (withInstructions M f v).instructions := by
    unfold Machine.instructions
    rw [if_neg (show (withInstructions M f' v').instructionsFile ≠ [] from hf'), if_neg (show (withInstructions M f v).instructionsFile ≠ [] from hf), ht]
    rfl
  have hs : ∀ obj docObj instr adHoc, (withInstructions M f' v').setup obj docObj instr adHoc = (withInstructions M f v).setup obj docObj instr adHoc := by
    intro obj docObj instr adHoc
    simp only [Machine.setup, hd]
    rfl
  cases he with
  | start e h1 => exact .start e h1
  | instructionsFail h1 h2 => exact .instructionsFail h1 (hi.trans h2)
  | instructionsFailCrash t doc h1 h2 h3 h4 h5 h6 => exact .instructionsFailCrash t doc h1 (hi.trans h2) hf' (ht.symm.trans h4) h5 h6
  | instructionsCrash h1 h2 => exact .instructionsCrash h1 (hi.trans h2)
  | nullFile i h1 h2 h3 h4 => exact .nullFile i h1 (hi.trans h2) h3 (by rw [← hd]; exact h4)
  | beforeNull i h1 h2 h3 h4 => exact .beforeNull i h1 (hi.trans h2) h3 (by rw [← hd]; exact h4)
  | badValue i obj docObj instr files h1 h2 h3 h4 h5 =>
    exact .badValue i obj docObj instr files h1 (hi.trans h2) (by rw [hs]; exact h3) (by rw [hs]; exact h4) h5
  | unreadable i obj docObj instr adHoc h1 h2 h3 h4 =>
    exact .unreadable i obj docObj instr adHoc h1 (hi.trans h2) (by rw [hs]; exact h3) (by rw [hs]; exact h4)
  | ran i obj docObj instr adHoc files s r h1 h2 h3 h4 h5 h6 h7 =>
    exact .ran i obj docObj instr adHoc files s r h1 (hi.trans h2) (by rw [hs]; exact h3) (by rw [hs]; exact h4) (by rw [hs]; exact h5)
      (by rw [hs]; exact h6) h7
  | crashed i obj docObj instr adHoc files s h1 h2 h3 h4 h5 h6 h7 =>
    exact .crashed i obj docObj instr adHoc files s h1 (hi.trans h2) (by rw [hs]; exact h3) (by rw [hs]; exact h4) (by rw [hs]; exact h5)
      (by rw [hs]; exact h6) h7

/-- C101. What counts is the text of the instructions and the directory they lie in: with the same
text from elsewhere in that directory (another file, standard input, a template and other values)
the program ends in the same ways, with the same outputs. -/
theorem C101_same_text (M : Machine) (f f' : Str) (v v' : Option (List Str)) (hc : M.cwd ≠ []) (hf : f ≠ []) (hf' : f' ≠ [])
    (hd : SameDirectory M f f') (t : Str) (h : InstructionsTextIs (withInstructions M f v) t) (h' : InstructionsTextIs (withInstructions M f' v') t)
    (e : Exit) (log : List Out) : (withInstructions M f v).Ends e log ↔ (withInstructions M f' v').Ends e log := by
  have ht : (withInstructions M f v).instructionsText = (withInstructions M f' v').instructionsText := by
    rw [(instructionsText_iff _ t).2 h, (instructionsText_iff _ t).2 h']
  have hdir := same_directory hc hf hf' hd v v'
  exact ⟨ends_of_text hf hf' hdir ht, ends_of_text hf' hf hdir.symm ht.symm⟩

/-- C101. Instructions that lie in the working directory can be given by standard input instead
(if that is not used otherwise). -/
theorem C101_stdin (M : Machine) (d : List Str) (b t : Str) (hd : ∀ c ∈ d, IsName c) (hb : IsName b) (hbd : b ≠ ['-']) (hc : M.cwd = absPath d)
    (ht : M.disk (absPath (d ++ [b])) = some t) (hs : M.stdinText = some t)
    (e : Exit) (log : List Out) : (withInstructions M ['-'] none).Ends e log ↔ (withInstructions M b none).Ends e log := by
  have hcne : M.cwd ≠ [] := by rw [hc]; simp [absPath]
  have hloc : ∀ x, IsName x → M.locate x = absPath (d ++ [x]) := by
    intro x hx
    unfold Machine.locate
    rw [isAbs_of_mem hx, if_neg (by simp), hc]
    exact locate_name d x hd hx
  have hm : IsName ['-'] := by decide
  refine C101_same_text M ['-'] b none none hcne (by simp) hb.1 ⟨d, ['-'], b, ?_, hloc _ hm, hloc _ hb⟩ t (.inl ⟨rfl, ?_⟩) (.inl ⟨rfl, ?_⟩) e log
  · intro c hcm
    rcases List.mem_append.1 hcm with h | h
    · exact hd c h
    · rcases List.mem_cons.1 h with rfl | h
      · exact hm
      · rw [List.mem_singleton.1 h]; exact hb
  · exact hs
  · show (if b = ['-'] then M.stdinText else M.disk (M.locate b)) = some t
    rw [if_neg hbd, hloc b hb]
    exact ht

/-- C101. A template can be rendered beforehand: with the result in a file of the same directory,
and no values files, everything is as with the template and the values. -/
theorem C101_rendered (M : Machine) (f f' : Str) (values : List Str) (hc : M.cwd ≠ []) (hf : f ≠ []) (hf' : f' ≠ []) (hfd : f' ≠ ['-'])
    (hd : SameDirectory M f f') (t : Str) (h : InstructionsTextIs (withInstructions M f (some values)) t) (ht : M.disk (M.locate f') = some t)
    (e : Exit) (log : List Out) : (withInstructions M f (some values)).Ends e log ↔ (withInstructions M f' none).Ends e log := by
  refine C101_same_text M f f' (some values) none hc hf hf' hd t h (.inl ⟨rfl, ?_⟩) e log
  show (if f' = ['-'] then M.stdinText else M.disk (M.locate f')) = some t
  rw [if_neg hfd]
  exact ht

/-! ### Examples -/

namespace Ex

/-- The instructions of the example by standard input. -/
def piped : Machine := { machine with stdinText := some c!"I" }

example (e : Exit) (log : List Out) : (withInstructions piped ['-'] none).Ends e log ↔ (withInstructions piped c!"i.yaml" none).Ends e log :=
  C101_stdin piped [c!"w"] c!"i.yaml" c!"I" (by decide) (by decide) (by decide) (by decide) (by decide) rfl e log

/-- A template that adds the value to its text, and its values. -/
def templated : Machine :=
  { machine with
    disk := fun l => if l = c!"/w/t.yaml" then some c!"T" else if l = c!"/w/v.yaml" then some c!"V" else machine.disk l
    parse := fun t => if t = c!"V" then some (dc (mp [sc c!"a", sc c!"1"])) else machine.parse t
    templates := { wellFormed := fun _ => true, calls := fun _ => [], builtin := [], exec := fun _ v => v.map (fun _ => c!"I") } }

example (e : Exit) (log : List Out) :
    (withInstructions templated c!"t.yaml" (some [c!"v.yaml"])).Ends e log ↔ (withInstructions templated c!"i.yaml" none).Ends e log :=
  C101_rendered templated c!"t.yaml" c!"i.yaml" [c!"v.yaml"] (by decide) (by decide) (by decide) (by decide)
    ⟨[c!"w"], c!"t.yaml", c!"i.yaml", by decide, by decide, by decide⟩ c!"I"
    (.inr ⟨[c!"v.yaml"], [dc (mp [sc c!"a", sc c!"1"])], _, c!"T", rfl, .cons ⟨c!"V", rfl, rfl⟩ .nil, rfl, rfl, rfl,
      fun _ h => (by cases h), rfl⟩) rfl e log

/-- In another directory the paths in the instructions mean other files. -/
example : (withInstructions machine c!"/w/i.yaml" none).dir = c!"/w" ∧ (withInstructions machine c!"/v/i.yaml" none).dir = c!"/v" := by decide

end Ex

end Yot
