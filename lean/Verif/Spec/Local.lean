import Verif.Spec.FromFile
/-
Two runs that agree on what concerns one input.
-/
namespace Yot.Spec

/-- The runs `T` in `P` and `T'` in `P'` agree on the input `p`: the same common overlays, the
same overlay on the command line, the same entries for `p` (directories being expanded), the
same documents in the file, and the same settings for applying and rendering. Nothing is said
about the other inputs: they may be different ones, with other overlays and other contents. -/
structure SameFor (p : Str) (T T' : Task) (P P' : Setup) : Prop where
  common : T'.common = T.common
  cli : T'.cli = T.cli
  entries : entriesFor p (expand P'.fs P'.dir T'.files) = entriesFor p (expand P.fs P.dir T.files)
  commandLine : entriesFor p (expand P'.fs P'.dir (Task.commandLine P'.adHocPath)) = entriesFor p (expand P.fs P.dir (Task.commandLine P.adHocPath))
  text : P'.read1 p = P.read1 p ∧ P'.read2 p = P.read2 p
  settings : P'.sed = P.sed ∧ P'.dflt = P.dflt ∧ P'.emit = P.emit ∧ P'.style = P.style ∧ P'.removeComments = P.removeComments

/-- The input `p` gets exactly its own overlays whatever the others have: there is no overlay
on the command line, or `p` has no overlays of its own (see C34 for what happens else). -/
def Undisturbed (T : Task) (P : Setup) (p : Str) : Prop := T.cli = none ∨ T.own P p = []

/-- No other input goes to the same output. -/
def OnlyOne (T : Task) (P : Setup) (p : Str) : Prop := ∀ q ∈ T.inputs P, T.nameFor P q = T.nameFor P p → q = p

end Yot.Spec
