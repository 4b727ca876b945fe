import Verif.Model.Process
import Verif.Spec.Config
import Verif.Spec.Query
/-
What the process as a whole is supposed to do.
-/
namespace Yot.Spec
open Yot

/-- The text of the instructions: the file (or standard input) itself; with values files
the result of the template, for the values merged in order (C45). -/
def InstructionsTextIs (M : Machine) (t : Str) : Prop :=
  (M.valueFiles = none ∧ M.stream M.instructionsFile = some t) ∨
  ∃ files nodes values file, M.valueFiles = some files ∧
    List.Forall₂ (fun f n => ∃ x, M.stream f = some x ∧ M.parse x = some n) files nodes ∧
    getValues M.sed nodes = .ok values ∧
    M.disk (M.locate M.instructionsFile) = some file ∧
    M.templates.wellFormed file = true ∧ (∀ f ∈ M.templates.calls file, f ∈ M.templates.builtin) ∧
    M.templates.exec file values = some t

/-- The instructions are these: none without the flag `-i`, else what the text says. -/
def InstructionsOf (M : Machine) (i : DInstr) : Prop :=
  (M.instructionsFile = [] ∧ i = {}) ∨
  (M.instructionsFile ≠ [] ∧ ∃ t doc, InstructionsTextIs M t ∧ M.parse t = some doc ∧ InstructionsAre M.D doc i)

/-- The instructions have these common overlays and files, no file entry being null. -/
def AsksFiles (M : Machine) (common : List (Option DOverlay)) (files : List DFile) : Prop :=
  InstructionsOf M ⟨common, files.map some⟩

/-- The instructions and the flags ask for the task `T`. -/
def Asks (M : Machine) (T : Task) : Prop := AsksFiles M T.common T.files ∧ FlagsDescribe M.D M.cli T.cli

/-- The settings and the environment of the run, nothing being in memory yet. -/
def settingsOf (M : Machine) : Setup :=
  M.setup (fun _ => none) (fun _ => none) { ov := ⟨0, fun _ _ => none⟩, dc := ⟨0, fun _ _ => none⟩, common := nilSlice, entries := [] } none

/-- The name of a log level, in any mixture of letter cases. -/
def NamesLevel (t : Str) : Prop :=
  ∃ w ∈ [c!"critical", c!"error", c!"warning", c!"notice", c!"info", c!"debug"], AnyCase t w

/-- The start is well: flags are accepted, the configuration file asked for can be read,
the log level is one. -/
structure StartsWell (M : Machine) : Prop where
  flags : M.flagsParse = true
  query : ∃ qs, setQueryFlags M.D M.cli.queries [] = some qs
  action : ∃ a, M.cli.readAction = some a
  config : fileEntries M.start ≠ none
  level : NamesLevel (M.text c!"logLevel")

/-- The file's overlays apply, and the result can be rendered, to `t` (none: nothing to
write). -/
def Produces (M : Machine) (T : Task) (p : Str) (t : Option Str) : Prop :=
  ∃ docs, T.FileResult (settingsOf M) p docs ∧ rendering (settingsOf M).emit (settingsOf M).style docs = .ok t

/-- Where the result for an input goes. -/
def destination (M : Machine) (T : Task) (p : Str) : Str := M.locate (T.nameFor (settingsOf M) p)

end Yot.Spec
