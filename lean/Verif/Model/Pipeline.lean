import Verif.Model.Execute
import Verif.Model.Nil
/-
internal/instructions/{instructions,config,yamlfile}.go: `GetInstructions` as a whole,
on slices of pointers, and the run it leads to.
-/
namespace Yot

/-- document.go:9-13 `Document` as decoded. -/
structure DDocument where
  name : Str := []
  path : Int := 0
  overlays : List (Option DOverlay) := []

/-- yamlfile.go:21-34 `YamlFile` as decoded. -/
abbrev DFile := Entry (List (Option DOverlay)) (List (Option DDocument))

/-- document.go:9-13 `Document`, its overlays as pointers. -/
structure DocObj where
  name : Str := []
  path : Int := 0
  overlays : List Nat := []

/-- instructions.go:20-25 `Instructions` as the YAML library hands them to the tool's
own code (yamlfile.go:62): the arrays behind the overlay lists and behind the document
lists, the common overlays, the entries under `yamlFiles`. -/
structure Instr where
  ov : Mem Nat
  dc : Mem Nat
  common : Slice
  entries : List (Entry Slice Slice)

/-- A nil slice. (instructions.go:115) -/
def nilSlice : Slice := ⟨0, 0, 0⟩

/-- Everything a run depends on.  `dir` is the setting `instructionsDir`, `read1` what
reading and decoding a file gives (`none`: an error), `read2` the same when the files
of the command line are read (standard input may be used up by then), `obj` and
`docObj` the overlays and documents behind the pointers (`none`: the pointer is nil), `adHocPath` the `--path` flag,
`adHoc` the overlay made from `--query`, `--action` and `--value`; the others are as
in `Run`. (instructions.go:27-137) -/
structure Setup where
  sed : Sed
  dflt : Str
  emit : Bool → Node → Res Err Str
  style : List Str
  outDir : Str
  writeFails : List Out → Out → Bool
  fs : Fs
  dir : Str
  read1 : Str → Option (List Node)
  read2 : Str → Option (List Node)
  grow : Nat → Nat → Nat
  obj : Nat → Option DOverlay
  docObj : Nat → Option DocObj
  instr : Instr
  adHocPath : Str
  adHoc : Option Nat
  removeComments : Bool

/-- yamlfile.go:84-109 `readYamlFile` for each entry (yamlfile.go:73-77, config.go:156-160):
the documents are appended to `Nodes`. -/
def readAll {O D : Type} (read : Str → Option (List Node)) : List (Entry O D) → Option (List (Entry O D))
  | [] => some []
  | y :: ys =>
    match read y.path, readAll read ys with
    | some ns, some ys' => some ({ y with nodes := y.nodes ++ ns } :: ys')
    | _, _ => none

/-- The arrays and the entries. (instructions.go:113-117, yamlfile.go:111-180) -/
structure Lists where
  ov : Mem Nat
  dc : Mem Nat
  files : List (Entry Slice Slice)

/-- yamlfile.go:167-171, the entry `y` is added to the earlier one for its path. -/
def absorbS (grow : Nat → Nat → Nat) (ov dc : Mem Nat) (y : Entry Slice Slice) : List (Entry Slice Slice) → Lists
  | [] => ⟨ov, dc, []⟩
  | d :: ds =>
    if d.path = y.path then
      let r := ov.append grow d.overlays (ov.read y.overlays)
      let q := dc.append grow d.documents (dc.read y.documents)
      ⟨r.1, q.1, { d with
        overlays := r.2
        documents := q.2
        outputPath := if y.outputPath ≠ [] then y.outputPath else d.outputPath } :: ds⟩
    else
      let r := absorbS grow ov dc y ds
      ⟨r.ov, r.dc, d :: r.files⟩

/-- yamlfile.go:158-178 `mergeDuplicates`. -/
def mergeDupS (grow : Nat → Nat → Nat) : Mem Nat → Mem Nat → List (Entry Slice Slice) → List (Entry Slice Slice) → Lists
  | ov, dc, done, [] => ⟨ov, dc, done⟩
  | ov, dc, done, y :: ys =>
    if done.any (fun d => d.path = y.path) then
      let r := absorbS grow ov dc y done
      mergeDupS grow r.ov r.dc r.files ys
    else mergeDupS grow ov dc (done ++ [y]) ys

/-- instructions.go:113-117 `addCommonOverlays`. -/
def addCommonS (grow : Nat → Nat → Nat) (common : Slice) : Mem Nat → List (Entry Slice Slice) →
    Mem Nat × List (Entry Slice Slice)
  | m, [] => (m, [])
  | m, y :: ys =>
    let r := m.append grow common (m.read y.overlays)
    let rs := addCommonS grow common r.1 ys
    (rs.1, { y with overlays := r.2 } :: rs.2)

/-- config.go:187-193 `determinePath`. -/
def determinePath (p : Str) : Str := if p = ['-'] then c!"stdin.yaml" else []

/-- config.go:144-150: the entry for the `--path` flag. -/
def Setup.adHocEntry (P : Setup) : Entry Slice Slice where
  name := c!"StdIn"
  path := P.adHocPath
  outputPath := determinePath P.adHocPath
  overlays := nilSlice
  documents := nilSlice

/-- config.go:142-160 `ReadAdHocPaths`, up to appending the files to the others. -/
def Setup.adHocFiles (P : Setup) (fuel : Nat) : Expanded Slice Slice :=
  if P.adHocPath = [] then .done []
  else match expandLoop P.fs P.dir fuel [] [P.adHocEntry] with
    | .done ys =>
      match readAll P.read2 ys with
      | some ys' => .done ys'
      | none => .err
    | .err => .err
    | .running => .running

/-- An entry with the lists its slices stand for. (instructions.go:115) -/
def Entry.read (ov dc : Mem Nat) (docObj : Nat → Option DocObj) (e : Entry Slice Slice) : Entry (List Nat) (List (Option DocObj)) :=
  { name := e.name, overlays := ov.read e.overlays, documents := (dc.read e.documents).map docObj,
    nodes := e.nodes, path := e.path, outputPath := e.outputPath }

/-- instructions.go:27-68 `GetInstructions` (with yamlfile.go:59-82 `UnmarshalYAML`,
called while the instructions file is decoded), giving the files with the lists that
`queueOverlays` will find in the slices.  `fuel` as for `expandLoop`. -/
def Setup.getInstructions (P : Setup) (fuel : Nat) : Expanded (List Nat) (List (Option DocObj)) :=
  match expandLoop P.fs P.dir fuel [] P.instr.entries with
  | .err => .err
  | .running => .running
  | .done es =>
    let r1 := mergeDupS P.grow P.instr.ov P.instr.dc [] es
    match readAll P.read1 r1.files with
    | none => .err
    | some ys =>
      match P.adHocFiles fuel with
      | .err => .err
      | .running => .running
      | .done zs =>
        -- config.go:162-164
        let r2 := if P.adHocPath = [] then ⟨r1.ov, r1.dc, ys⟩ else mergeDupS P.grow r1.ov r1.dc [] (ys ++ zs)
        -- config.go:171-185
        let r3 := addCommandLineM P.grow r2.ov P.instr.common P.adHoc
        let r4 := addCommonS P.grow r3.2 r3.1 (setOutputPaths r2.files)
        .done (removeAllComments P.removeComments (r4.2.map (Entry.read r4.1 r2.dc P.docObj)))

/-- The document with its overlays by value. (document.go:9-13) -/
def DocObj.deref (obj : Nat → Option DOverlay) (d : DocObj) : DDocument :=
  { name := d.name, path := d.path, overlays := d.overlays.map obj }

/-- The file with its overlays by value. (yamlfile.go:39-57) -/
def Entry.deref (obj : Nat → Option DOverlay) (e : Entry (List Nat) (List (Option DocObj))) : DFile :=
  { name := e.name, overlays := e.overlays.map obj, documents := e.documents.map (Option.map (DocObj.deref obj)),
    nodes := e.nodes, path := e.path, outputPath := e.outputPath }

/-- What a sender sends, and whether it then dereferences a nil pointer. (yamlfile.go:39-57) -/
abbrev Sent := List (Nat × Nat) × Bool

/-- One part of a sender's loops after another. (yamlfile.go:40-54) -/
def Sent.andThen (a b : Sent) : Sent := if a.2 then a else (a.1 ++ b.1, b.2)

/-- yamlfile.go:41-46 for the document with index `i`: `CheckDocumentIndex` dereferences. -/
def sendOverlays (obj : Nat → Option DOverlay) (i : Nat) : List Nat → Sent
  | [] => ([], false)
  | p :: ps =>
    match obj p with
    | none => ([], true)
    | some o => Sent.andThen (if o.base.checkDocumentIndex i then [(i, p)] else [], false) (sendOverlays obj i ps)

/-- yamlfile.go:48-53 for the document with index `i`: `checkDocumentIndex` dereferences, the
overlays are sent as they are. -/
def sendDocuments (i : Nat) : List (Option DocObj) → Sent
  | [] => ([], false)
  | none :: _ => ([], true)
  | some d :: ds =>
    Sent.andThen (if d.path = (i : Int) then d.overlays.map (fun p => (i, p)) else [], false) (sendDocuments i ds)

/-- yamlfile.go:40-54: the loop over the remaining documents. -/
def Entry.sendFrom (obj : Nat → Option DOverlay) (e : Entry (List Nat) (List (Option DocObj))) : Nat → List Node → Sent
  | _, [] => ([], false)
  | i, _ :: ns =>
    Sent.andThen (Sent.andThen (sendOverlays obj i e.overlays) (sendDocuments i e.documents)) (e.sendFrom obj (i + 1) ns)

/-- What `Execute` needs of a file besides its overlays. (execute.go:28-53) -/
def Entry.bare {O D : Type} (e : Entry O D) : YamlFile :=
  { name := e.name, nodes := e.nodes, path := e.path, outputPath := e.outputPath }

/-- yamlfile.go:39-57 `queueOverlays` of file `i`. -/
def Setup.sent (P : Setup) (files : List (Entry (List Nat) (List (Option DocObj)))) (i : Nat) : Sent :=
  match files[i]? with
  | some e => e.sendFrom P.obj 0 e.nodes
  | none => ([], false)

/-- execute.go:18-72 `Execute` for the files that `GetInstructions` returned. -/
def Setup.run (P : Setup) (files : List (Entry (List Nat) (List (Option DocObj)))) : Run where
  sed := P.sed
  dflt := P.dflt
  files := files.map Entry.bare
  work := fun i => (P.sent files i).1
  stops := fun i => (P.sent files i).2
  nilIn := fun p doc => match P.obj p with
    | none => true
    | some o => o.nilIn P.sed P.dflt doc
  overlays0 := fun p => match P.obj p with
    | none => {}
    | some o => o.plain
  emit := P.emit
  style := P.style
  outDir := P.outDir
  writeFails := P.writeFails

end Yot
