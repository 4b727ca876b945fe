import Verif.Spec.Pipeline
import Verif.Spec.Decode
/-
What a run is supposed to do, from the text of the instructions file and the flags on.
-/
namespace Yot.Spec

/-- What is asked for: the common overlays (some of which may be null), the entries under
`yamlFiles`, the overlay of the command line. -/
structure Task where
  common : List (Option DOverlay)
  files : List DFile
  cli : Option DOverlay

/-- The instructions file `doc` describes the common overlays and the files; no file entry
is null. -/
def Describes (D : Dec) (doc : Node) (common : List (Option DOverlay)) (files : List DFile) : Prop :=
  InstructionsAre D doc ⟨common, files.map some⟩

/-- The action of the flag `--action`: `invalid` (which later counts as merge, see C24) if
it is not given, or empty, or null; else what the word says. -/
def FlagAction (f : Option Flag) (a : Action) : Prop :=
  (f = none ∧ a = .invalid) ∨ (f = some .empty ∧ a = .invalid) ∨
  ∃ r, f = some (.root r) ∧ ((Null r ∧ a = .invalid) ∨ (¬ Null r ∧ ActionIs r a))

/-- The query of a flag `--query`: none (without any path) if it is empty or null. -/
def FlagQuery (D : Dec) (f : Flag) (q : Option Query) : Prop :=
  (f = .empty ∧ q = none) ∨
  ∃ r, f = .root r ∧ ((Null r ∧ q = none) ∨ (¬ Null r ∧ ∃ x, QueryIs D r x ∧ q = some x))

/-- The flags describe the overlay `cli`: none if there is no `--query`. -/
def FlagsDescribe (D : Dec) (c : CliFlags) (cli : Option DOverlay) : Prop :=
  ∃ a qs, FlagAction c.action a ∧ List.Forall₂ (FlagQuery D) c.queries qs ∧
    ((qs = [] ∧ cli = none) ∨
     (qs ≠ [] ∧ ∃ v, ((c.value = .empty ∧ v = zeroNode) ∨ c.value = .root v) ∧
      cli = some { base := { query := qs.map (·.getD ⟨[], fun _ => []⟩), action := a, value := v }, pathless := qs.any (·.isNone) }))

/-- What the program has in memory after reading the instructions `i`: objects that are
what has been read (nil pointers for nulls), and lists of pointers to them, in arrays
without spare room. -/
structure Loaded (i : DInstr) (P : Setup) : Prop where
  overlaysRead : (P.instr.ov.read P.instr.common).map P.obj = i.common
  filesRead : (given P).map (fun e => some (Entry.deref P.obj e)) = i.files
  common : P.instr.common.Valid P.instr.ov ∧ P.instr.common.cap = P.instr.common.len
  overlays : ∀ e ∈ P.instr.entries, e.overlays.Valid P.instr.ov ∧ e.overlays.cap = e.overlays.len
  documents : ∀ e ∈ P.instr.entries, e.documents.Valid P.instr.dc ∧ e.documents.cap = e.documents.len

/-- What the program has in memory for the flags. -/
def FlagsLoaded (D : Dec) (c : CliFlags) (P : Setup) : Prop :=
  (adHocOverlay D c = some none ∧ P.adHoc = none) ∨
  ∃ qs o p, adHocOverlay D c = some (some (qs, o)) ∧ P.adHoc = some p ∧ P.obj p = some (cliOverlay qs o)

/-- What the program has in memory after reading the file and the flags. -/
def InMemory (D : Dec) (doc : Node) (c : CliFlags) (P : Setup) : Prop :=
  (∃ i, decodeInstructions D (some doc) = some i ∧ Loaded i P) ∧ FlagsLoaded D c P

namespace Task

/-- The entry for the `--path` flag, if given. -/
def commandLine (path : Str) : List DFile :=
  if path = [] then []
  else [{ name := c!"StdIn", path := path, outputPath := if path = ['-'] then c!"stdin.yaml" else [] }]

/-- All entries, directories expanded. -/
def listed (T : Task) (P : Setup) : List DFile :=
  expand P.fs P.dir T.files ++ expand P.fs P.dir (commandLine P.adHocPath)

/-- The inputs: each path once, at its first position. -/
def inputs (T : Task) (P : Setup) : List Str := firsts ((T.listed P).map (·.path))

/-- The documents of an input, without comments on request. -/
def contents (T : Task) (P : Setup) (p : Str) : List Node :=
  let ns := documentsOf P.read1 P.read2 (expand P.fs P.dir T.files) p
  if P.removeComments then ns.map removeComments else ns

/-- The overlays given for an input, from all its entries in order. -/
def own (T : Task) (P : Setup) (p : Str) : List (Option DOverlay) := (entriesFor p (T.listed P)).flatMap (·.overlays)

/-- The spare room that `append` leaves behind the common overlays when it adds that of
the command line. -/
def spare (T : Task) (P : Setup) : Nat :=
  if T.cli.isSome then P.grow T.common.length (T.common.length + 1) - (T.common.length + 1) else 0

/-- The overlays an input gets after the common ones: its own, unless they are lost to
other inputs in the spare room (C34, `C65_own_overlays`). -/
def gets (T : Task) (P : Setup) (p : Str) : List (Option DOverlay) := received (T.spare P) ((T.inputs P).map (T.own P)) (T.own P p)

/-- The overlays (or nulls) that reach document `i` of an input, in order: the common ones, the
one of the command line, those the input gets, leaving out those that do not select the
document; then those listed under `documents` for it. -/
def overlaysOn (T : Task) (P : Setup) (p : Str) (i : Nat) : List (Option DOverlay) :=
  (T.common ++ T.cli.toList.map some ++ T.gets P p).filter (fun x => decide (ItemSelects x i)) ++
  ((entriesFor p (T.listed P)).flatMap (·.documents)).flatMap (itemsFor i)

/-- The documents of an input after the run. -/
def FileResult (T : Task) (P : Setup) (p : Str) (docs : List Node) : Prop :=
  docs.length = (T.contents P p).length ∧
  ∀ i d, (T.contents P p)[i]? = some d →
    ∃ d', docs[i]? = some d' ∧ applyItems P.sed P.dflt (T.overlaysOn P p i) d = .ok d'

/-- What can make processing an input crash: a null among the overlays for one of its
documents, one that crashes, or the rendering. -/
def MayCrash (T : Task) (P : Setup) (p : Str) : Prop :=
  (∃ i d, (T.contents P p)[i]? = some d ∧ (none ∈ T.overlaysOn P p i ∨ applyItems P.sed P.dflt (T.overlaysOn P p i) d = .panic)) ∨
  ∃ docs, T.FileResult P p docs ∧ rendering P.emit P.style docs = .panic

/-- The name under which an input is written (C37-C40 are about this). -/
def nameFor (T : Task) (P : Setup) (p : Str) : Str :=
  let w : DFile := { path := p, outputPath := lastGiven ((entriesFor p (T.listed P)).map (·.outputPath)) }
  outputName P.outDir { w with outputPath := outputPathFor (getCommonPrefix ((T.inputs P).filter (· ≠ ['-']))) w }

/-- Every entry exists, no directory entry has a file name as outputPath, every file
can be read and decoded. -/
def Readable (T : Task) (P : Setup) : Prop :=
  FilesRead P.fs P.dir P.read1 T.files ∧ FilesRead P.fs P.dir P.read2 (commandLine P.adHocPath)

/-- The program never stops listing files (C36): those of the instructions, or, these
being read, those of the command line. -/
def Hangs (T : Task) (P : Setup) : Prop :=
  Endless P.fs P.dir T.files ∨
  FilesRead P.fs P.dir P.read1 T.files ∧ Endless P.fs P.dir (commandLine P.adHocPath)

end Task

/-- What is assumed of the environment: see `Sound`. -/
structure Environment (P : Setup) : Prop where
  dir : DirKnown P.dir
  fs : Consistent P.fs
  grow : ∀ c n, n ≤ P.grow c n

end Yot.Spec
