import Verif.Model.Pipeline
import Verif.Spec.Dirs
import Verif.Spec.Files
import Verif.Spec.Order
import Verif.Lemmas.Slices
/-
What a run from the configuration, the instructions and the files to the outputs is
supposed to do.
-/
namespace Yot.Spec

/-- An entry as written: its lists of overlays and documents (by pointers). -/
abbrev Written := Entry (List Nat) (List (Option DocObj))

/-- The entries of the instructions file. -/
def given (P : Setup) : List Written := P.instr.entries.map (Entry.read P.instr.ov P.instr.dc P.docObj)

/-- The entry of the command line, if any. -/
def adHocGiven (P : Setup) : List Written :=
  if P.adHocPath = [] then []
  else [{ name := c!"StdIn", overlays := [], documents := [], path := P.adHocPath,
          outputPath := if P.adHocPath = ['-'] then c!"stdin.yaml" else [] }]

/-- All entries, directories expanded. -/
def listed (P : Setup) : List Written := expand P.fs P.dir (given P) ++ expand P.fs P.dir (adHocGiven P)

/-- The inputs: each path once, at its first position. -/
def inputs (P : Setup) : List Str := firsts ((listed P).map (·.path))

/-- The documents of an input, without comments on request. -/
def contents (P : Setup) (p : Str) : List Node :=
  let ns := documentsOf P.read1 P.read2 (expand P.fs P.dir (given P)) p
  if P.removeComments then ns.map removeComments else ns

/-- The overlays given for an input, from all its entries in order. -/
def own (P : Setup) (p : Str) : List Nat := (entriesFor p (listed P)).flatMap (·.overlays)

/-- The documents given for an input, from all its entries in order. -/
def ownDocs (P : Setup) (p : Str) : List (Option DocObj) := (entriesFor p (listed P)).flatMap (·.documents)

/-- The outputPath given for an input: that of its last entry with one. -/
def givenOutput (P : Setup) (p : Str) : Str := lastGiven ((entriesFor p (listed P)).map (·.outputPath))

/-- The common overlays, then that of the command line. -/
def common (P : Setup) : List Nat := P.instr.ov.read P.instr.common ++ P.adHoc.toList

/-- The spare room that `append` leaves behind the common overlays when it adds that of
the command line. -/
def spare (P : Setup) : Nat :=
  let n := (P.instr.ov.read P.instr.common).length
  if P.adHoc.isSome then P.grow n (n + 1) - (n + 1) else 0

/-- The overlays an input gets after the common ones: its own, unless they are lost to
other inputs in the spare room (C34, `C55_own_overlays`). -/
def gets (P : Setup) (p : Str) : List Nat := received (spare P) ((inputs P).map (own P)) (own P p)

/-- The item reaches document `i`: an overlay that selects it; a null always does. -/
def ItemSelects (x : Option DOverlay) (i : Nat) : Prop := ∀ o, x = some o → Selects o.base i

instance (x : Option DOverlay) (i : Nat) : Decidable (ItemSelects x i) :=
  match x with
  | none => .isTrue (by intro o h; cases h)
  | some o => decidable_of_iff (Selects o.base i) ⟨fun h o' e => by cases e; exact h, fun h => h o rfl⟩

/-- The overlays (or nulls) that an entry under `documents` has for document `i`.  A null
entry counts as a null overlay. -/
def itemsFor (i : Nat) : Option DDocument → List (Option DOverlay)
  | none => [none]
  | some d => if d.path = (i : Int) then d.overlays else []

/-- The overlays (or nulls) that reach document `i` of an input, in order: the common ones, the
one of the command line, those the input gets, leaving out those that do not select the
document; then those listed under `documents` for it. -/
def overlaysOn (P : Setup) (p : Str) (i : Nat) : List (Option DOverlay) :=
  ((common P ++ gets P p).map P.obj).filter (fun x => decide (ItemSelects x i)) ++
  (ownDocs P p).flatMap (fun d => itemsFor i (d.map (DocObj.deref P.obj)))

/-- Apply overlays one after the other, each to the result of the previous one; the first
error or null ends it. -/
def applyItems (E : Sed) (dflt : Str) : List (Option DOverlay) → Node → Res Err Node
  | [], d => .ok d
  | none :: _, _ => .panic
  | some o :: os, d => o.apply E dflt d.label >>= applyItems E dflt os

/-- The documents of an input after the run. -/
def FileResult (P : Setup) (p : Str) (docs : List Node) : Prop :=
  docs.length = (contents P p).length ∧
  ∀ i d, (contents P p)[i]? = some d →
    ∃ d', docs[i]? = some d' ∧ applyItems P.sed P.dflt (overlaysOn P p i) d = .ok d'

/-- What can make processing an input crash: a null among the overlays for one of its
documents, one that crashes, or the rendering. -/
def MayCrash (P : Setup) (p : Str) : Prop :=
  (∃ i d, (contents P p)[i]? = some d ∧ (none ∈ overlaysOn P p i ∨ applyItems P.sed P.dflt (overlaysOn P p i) d = .panic)) ∨
  ∃ docs, FileResult P p docs ∧ rendering P.emit P.style docs = .panic

/-- The name under which an input is written (C37-C40 are about this). -/
def nameFor (P : Setup) (p : Str) : Str :=
  let w : Written := { overlays := [], documents := [], path := p, outputPath := givenOutput P p }
  outputName P.outDir { w with outputPath := outputPathFor (getCommonPrefix ((inputs P).filter (· ≠ ['-']))) w }

/-- Every entry exists, no directory entry has a file name as outputPath, every file
can be read and decoded. -/
def Readable (P : Setup) : Prop :=
  FilesRead P.fs P.dir P.read1 (given P) ∧ FilesRead P.fs P.dir P.read2 (adHocGiven P)

/-- The program never stops listing files (C36): those of the instructions, or, these
being read, those of the command line. -/
def Hangs (P : Setup) : Prop :=
  Endless P.fs P.dir (given P) ∨
  FilesRead P.fs P.dir P.read1 (given P) ∧ Endless P.fs P.dir (adHocGiven P)

/-- What is assumed: the directory of the instructions file is known (or none is used),
the file system is one; lists are as the YAML library makes them, without spare room; and
`append` makes enough room. -/
structure Sound (P : Setup) : Prop where
  dir : DirKnown P.dir
  fs : Consistent P.fs
  grow : ∀ c n, n ≤ P.grow c n
  common : P.instr.common.Valid P.instr.ov ∧ P.instr.common.cap = P.instr.common.len
  overlays : ∀ e ∈ P.instr.entries, e.overlays.Valid P.instr.ov ∧ e.overlays.cap = e.overlays.len
  documents : ∀ e ∈ P.instr.entries, e.documents.Valid P.instr.dc ∧ e.documents.cap = e.documents.len

end Yot.Spec
