import Verif.Model.Overlay
/-
internal/instructions/{document,yamlfile}.go and internal/overlays/workstream.go:
the overlays of one file, as run by one worker.
-/
namespace Yot

/-- document.go:9-13 `Document`. -/
structure Document where
  name : Str := []
  path : Int := 0
  overlays : List Overlay := []

/-- yamlfile.go:21-34 `YamlFile`, with the overlay and document lists as some `O`
and `D`: lists of values (`YamlFile`), or slices of pointers (`Model/Pipeline`). -/
structure Entry (O D : Type) where
  name : Str := []
  overlays : O := by exact []
  documents : D := by exact []
  nodes : List Node := []
  path : Str := []
  outputPath : Str := []

/-- yamlfile.go:21-34 `YamlFile`.  An overlay is given by value here although Go
shares `*Overlay` objects; `C25_stable` and the heap model (`Model/Heap`) justify
this, and `Model/Pipeline` has the pointers. -/
abbrev YamlFile := Entry (List Overlay) (List Document)

/-- document.go:16-18 `checkDocumentIndex`. -/
def Document.checkDocumentIndex (d : Document) (docIndex : Int) : Bool := d.path = docIndex

/-- workstream.go:12-17 `workload`; the node is named by its index. -/
structure Job where
  index : Nat
  overlay : Overlay

/-- yamlfile.go:41-53, the workloads sent for the document with index `i`. -/
def YamlFile.docJobs (yf : YamlFile) (i : Nat) : List Job :=
  (yf.overlays.filter (fun o => o.checkDocumentIndex i)).map (Job.mk i) ++
  yf.documents.flatMap (fun d =>
    if d.checkDocumentIndex i then d.overlays.map (Job.mk i) else [])

/-- yamlfile.go:40-54: the loop over the remaining documents, from index `i`. -/
def YamlFile.jobsFrom (yf : YamlFile) : Nat → List Node → List Job
  | _, [] => []
  | i, _ :: ns => yf.docJobs i ++ yf.jobsFrom (i + 1) ns

/-- yamlfile.go:39-57 `queueOverlays`: all workloads in the order sent. -/
def YamlFile.jobs (yf : YamlFile) : List Job := yf.jobsFrom 0 yf.nodes

/-- workstream.go:45-51, one iteration of `StartHandler`. -/
def handleJob (E : Sed) (dflt : Str) (docs : List Node) (j : Job) : Res Err (List Node) :=
  match docs[j.index]? with
  | none => .ok docs
  | some d => applyJob E dflt j.overlay d >>= fun d' => .ok (docs.set j.index d')

/-- workstream.go:44-54 `StartHandler` on a sequence of workloads: stops at the
first error. -/
def handleJobs (E : Sed) (dflt : Str) (docs : List Node) (js : List Job) : Res Err (List Node) :=
  js.foldlM (handleJob E dflt) docs

/-- execute.go:33-41: what one worker computes for its file when run alone. -/
def runFile (E : Sed) (dflt : Str) (yf : YamlFile) : Res Err (List Node) :=
  handleJobs E dflt yf.nodes yf.jobs

end Yot
