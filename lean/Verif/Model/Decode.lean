import Verif.Model.Pipeline
/-
From the parsed instructions file to the Go structures: the decoding rules of
gopkg.in/yaml.v3 (decode.go, from knowledge of the library) for the struct types of
internal/instructions and internal/overlays, with the tool's own `UnmarshalYAML`
methods; and the overlay made from command line flags.

Simplifications: the parser is not modelled (its result, a node tree with resolved
tags, is the input).  Aliases outside of `value` and merge keys (`<<`) are rejected
here, while the library follows them.  Which of several errors is reported is left
open, as is the order of an error and a crash in different parts of a file.
-/
namespace Yot

/-- External functions: `int` is the integer a scalar stands for when decoded into a
Go `int` (decode.go `scalar`, resolve.go), `path` is `yamlpath.NewPath`, `nodes` the
decoding of the field `Nodes` of `YamlFile`. -/
structure Dec where
  int : Node → Option Int
  path : Str → Option (Node → List Node)
  nodes : Node → Option (List Node)

/-- Outcome of decoding a node into a variable: an error; nothing stored (the variable
keeps its value); a value stored. (instructions.go:98-106, config.go:171-185) -/
inductive Got (α : Type) where
  | err
  | skip
  | val (a : α)

/-- decode.go `prepare`, `null`: the node is null. -/
def isNull (n : Node) : Bool := n.hd.kind = .scalar && n.hd.tag = c!"!!null"

/-- decode.go `scalar` into a `string`: the text of any scalar but null; other kinds
are type errors. -/
def decodeStr (n : Node) : Got Str :=
  if isNull n then .skip
  else if n.hd.kind = .scalar then .val n.hd.value
  else .err

/-- decode.go `scalar` into an `int`. -/
def decodeInt (D : Dec) (n : Node) : Got Int :=
  if isNull n then .skip
  else if n.hd.kind = .scalar then
    match D.int n with
    | some i => .val i
    | none => .err
  else .err

/-- decode.go `sequence`, the loop: items that store nothing are left out. -/
def decodeItems {α : Type} (f : Node → Got α) : List Node → Option (List α)
  | [] => some []
  | c :: cs =>
    match f c, decodeItems f cs with
    | .err, _ => none
    | _, none => none
    | .skip, some as => some as
    | .val a, some as => some (a :: as)

/-- decode.go `sequence`, `null` into a slice: null gives a nil slice (`none`). -/
def decodeSlice {α : Type} (f : Node → Got α) (n : Node) : Got (Option (List α)) :=
  if isNull n then .val none
  else if n.hd.kind = .sequence then
    match decodeItems f n.content with
    | some as => .val (some as)
    | none => .err
  else .err

/-- decode.go `prepare`, `null` into a pointer: null gives a nil pointer (`none`). -/
def decodePtr {α : Type} (f : Node → Got α) (n : Node) : Got (Option α) :=
  if isNull n then .val none
  else match f n with
    | .val a => .val (some a)
    | .skip => .skip
    | .err => .err

/-- decode.go `mapping`: some key after `k` has the same kind and text. -/
def keyRepeated (k : Node) : List Node → Bool
  | k2 :: _ :: r => (k.hd.kind = k2.hd.kind && k.hd.value = k2.hd.value) || keyRepeated k r
  | _ => false

/-- decode.go `mapping`, the check for repeated keys. -/
def dupKeys : List Node → Bool
  | k :: _ :: r => keyRepeated k r || dupKeys r
  | _ => false

/-- decode.go `isMerge`: a merge key. -/
def isMergeKey (k : Node) : Bool := k.hd.kind = .scalar && k.hd.tag = c!"!!merge"

/-- decode.go `mappingStruct`, the loop over keys and values; `set` stores a value
under a key.  A null key is skipped, another key that is no scalar is an error. -/
def structLoop {σ : Type} (set : Str → Node → σ → Option σ) : List Node → σ → Option σ
  | k :: v :: r, s =>
    if isMergeKey k then none
    else match decodeStr k with
    | .err => none
    | .skip => structLoop set r s
    | .val t =>
      match set t v s with
      | some s' => structLoop set r s'
      | none => none
  | _, s => some s

/-- decode.go `unmarshal` into a struct without `UnmarshalYAML`. -/
def decodeStruct {σ : Type} (set : Str → Node → σ → Option σ) (zero : σ) (n : Node) : Got σ :=
  if isNull n then .skip
  else if n.hd.kind = .mapping then
    if dupKeys n.content then .err
    else match structLoop set n.content zero with
      | some s => .val s
      | none => .err
  else .err

/-- Store a decoded value in a field of `s`. (instructions.go:98-106) -/
def store {α σ : Type} (g : Got α) (s : σ) (f : α → σ) : Option σ :=
  match g with
  | .err => none
  | .skip => some s
  | .val a => some (f a)

/-- query.go:21-38 `Query.UnmarshalYAML` (a null is not passed to it). -/
def decodeQuery (D : Dec) (n : Node) : Got Query :=
  match decodeStr n with
  | .err => .err
  | .skip => .skip
  | .val s =>
    match D.path s with
    | some f => .val ⟨s, f⟩
    | none => .err

/-- query.go:49-69 `Queries.UnmarshalYAML`: a text, or a list. -/
def decodeQueries (D : Dec) (n : Node) : Got (Option (List Query)) :=
  if isNull n then .val none
  else if n.hd.kind = .scalar then
    match decodeQuery D n with
    | .val q => .val (some [q])
    | _ => .err
  else decodeSlice (decodeQuery D) n

/-- action.go:47-71 `Action.UnmarshalYAML`. -/
def decodeAction (n : Node) : Got Action :=
  match decodeStr n with
  | .err => .err
  | .skip => .skip
  | .val s =>
    match parseAction s with
    | .ok a => .val a
    | _ => .err

/-- action.go:110-128 `OnMissingAction.UnmarshalYAML`. -/
def decodeOnMissingAction (n : Node) : Got OnMissingAction :=
  match decodeStr n with
  | .err => .err
  | .skip => .skip
  | .val s => .val (parseOnMissing s)

/-- documentquery.go:16-19 `Condition`; a `yaml.Node` field takes the node as it is. -/
def setCondition (D : Dec) (k : Str) (v : Node) (c : Condition) : Option Condition :=
  if k = c!"query" then store (decodeQueries D v) c (fun q => { c with query := q.getD [] })
  else if k = c!"value" then some { c with value := v }
  else some c

/-- The zero `yaml.Node`. (overlay.go:13-24) -/
def zeroNode : Node := .mk {} []

/-- documentquery.go:16-19 `Condition`. -/
def decodeCondition (D : Dec) : Node → Got Condition := decodeStruct (setCondition D) ⟨[], zeroNode⟩

/-- documentquery.go:12-14 `DocumentQuery`, with its conditions as pointers. -/
def setDocumentQuery (D : Dec) (k : Str) (v : Node) (q : List (Option Condition)) : Option (List (Option Condition)) :=
  if k = c!"conditions" then store (decodeSlice (decodePtr (decodeCondition D)) v) q (fun cs => cs.getD [])
  else some q

/-- documentquery.go:12-14 `DocumentQuery`. -/
def decodeDocumentQuery (D : Dec) : Node → Got (List (Option Condition)) := decodeStruct (setDocumentQuery D) []

/-- onmissing.go:25-28 `OnMissing`. -/
def setOnMissing (D : Dec) (k : Str) (v : Node) (m : OnMissing) : Option OnMissing :=
  if k = c!"action" then store (decodeOnMissingAction v) m (fun a => { m with action := a })
  else if k = c!"injectPath" then store (decodeQueries D v) m (fun q => { m with injectPath := q })
  else some m

/-- onmissing.go:25-28 `OnMissing`. -/
def decodeOnMissing (D : Dec) : Node → Got OnMissing := decodeStruct (setOnMissing D) {}

/-- overlay.go:16-24, the fields of `Overlay`. -/
def setOverlay (D : Dec) (k : Str) (v : Node) (o : DOverlay) : Option DOverlay :=
  if k = c!"name" then store (decodeStr v) o (fun t => { o with base := { o.base with name := t } })
  else if k = c!"query" then store (decodeQueries D v) o (fun q => { o with base := { o.base with query := q.getD [] } })
  else if k = c!"value" then some { o with base := { o.base with value := v } }
  else if k = c!"action" then store (decodeAction v) o (fun a => { o with base := { o.base with action := a } })
  else if k = c!"documentQuery" then
    store (decodeSlice (decodePtr (decodeDocumentQuery D)) v) o (fun qs => { o with queries := qs.getD [] })
  else if k = c!"onMissing" then store (decodeOnMissing D v) o (fun m => { o with base := { o.base with onMissing := m } })
  else if k = c!"documentIndex" then
    store (decodeSlice (decodeInt D) v) o (fun is => { o with base := { o.base with documentIndex := is } })
  else some o

/-- overlay.go:83-98 `Overlay.UnmarshalYAML`. -/
def decodeOverlay (D : Dec) (n : Node) : Got DOverlay :=
  match decodeStruct (setOverlay D) {} n with
  | .err => .err
  | .skip => .skip
  | .val o => .val { o with base := o.base.afterDecode }

/-- A list of overlays, by pointers. (instructions.go:15-25, yamlfile.go:22-37) -/
def decodeOverlays (D : Dec) : Node → Got (Option (List (Option DOverlay))) := decodeSlice (decodePtr (decodeOverlay D))

/-- document.go:9-13, the fields. -/
def setDocument (D : Dec) (k : Str) (v : Node) (d : DDocument) : Option DDocument :=
  if k = c!"name" then store (decodeStr v) d (fun t => { d with name := t })
  else if k = c!"path" then store (decodeInt D v) d (fun i => { d with path := i })
  else if k = c!"overlays" then store (decodeOverlays D v) d (fun os => { d with overlays := os.getD [] })
  else some d

/-- document.go:9-13 `Document`. -/
def decodeDocument (D : Dec) : Node → Got DDocument := decodeStruct (setDocument D) {}

/-- yamlfile.go:21-34, the fields; `Nodes` has no tag, so its key is `nodes`. -/
def setFile (D : Dec) (k : Str) (v : Node) (f : DFile) : Option DFile :=
  if k = c!"name" then store (decodeStr v) f (fun t => { f with name := t })
  else if k = c!"overlays" then store (decodeOverlays D v) f (fun os => { f with overlays := os.getD [] })
  else if k = c!"documents" then
    store (decodeSlice (decodePtr (decodeDocument D)) v) f (fun ds => { f with documents := ds.getD [] })
  else if k = c!"nodes" then (D.nodes v).map (fun ns => { f with nodes := ns })
  else if k = c!"path" then store (decodeStr v) f (fun t => { f with path := t })
  else if k = c!"outputPath" then store (decodeStr v) f (fun t => { f with outputPath := t })
  else some f

/-- yamlfile.go:21-34 `YamlFile`. -/
def decodeFile (D : Dec) : Node → Got DFile := decodeStruct (setFile D) {}

/-- instructions.go:20-25 `Instructions` as decoded; `files` is the list that
`YamlFiles.UnmarshalYAML` (yamlfile.go:59-64) starts from. -/
structure DInstr where
  common : List (Option DOverlay) := []
  files : List (Option DFile) := []

/-- instructions.go:20-25, the fields. -/
def setInstructions (D : Dec) (k : Str) (v : Node) (i : DInstr) : Option DInstr :=
  if k = c!"commonOverlays" then store (decodeOverlays D v) i (fun os => { i with common := os.getD [] })
  else if k = c!"yamlFiles" then
    store (decodeSlice (decodePtr (decodeFile D)) v) i (fun fs => { i with files := fs.getD [] })
  else some i

/-- instructions.go:102-107: decode the first document of the instructions file;
`none` is an error.  A file without a document is an error (`io.EOF`), a null document
leaves the instructions empty. -/
def decodeInstructions (D : Dec) : Option Node → Option DInstr
  | none => none
  | some doc =>
    match doc.content with
    | [] => none
    | c :: _ =>
      match decodeStruct (setInstructions D) {} c with
      | .err => none
      | .skip => some {}
      | .val i => some i

/-! ### Nil pointers -/

/-- yamlfile.go:42-46: the file-level overlays queued for document `i`; `none` is a
nil dereference. -/
def queueN (i : Nat) : List (Option DOverlay) → Option (List DOverlay)
  | [] => some []
  | none :: _ => none
  | some o :: os =>
    match queueN i os with
    | none => none
    | some r => some (if o.base.checkDocumentIndex i then o :: r else r)

/-- yamlfile.go:49-51: the overlays of a `documents` entry are queued as they are (a
nil one is dereferenced by the worker, workstream.go:46). -/
def queueDocN : List (Option DOverlay) → Option (List DOverlay)
  | [] => some []
  | none :: _ => none
  | some o :: os =>
    match queueDocN os with
    | none => none
    | some r => some (o :: r)

/-- yamlfile.go:48-53: those of the `documents` entries. -/
def queueDocsN (i : Nat) : List (Option DDocument) → Option (List DOverlay)
  | [] => some []
  | none :: _ => none
  | some d :: ds =>
    if d.path = (i : Int) then
      match queueDocN d.overlays, queueDocsN i ds with
      | some os, some r => some (os ++ r)
      | _, _ => none
    else queueDocsN i ds

/-- yamlfile.go:41-53, all overlays queued for document `i`. -/
def DFile.queue (f : DFile) (i : Nat) : Option (List DOverlay) :=
  match queueN i f.overlays, queueDocsN i f.documents with
  | some os, some r => some (os ++ r)
  | _, _ => none

/-- Outcome of `expandDirectories` on a list of pointers. (yamlfile.go:111-156) -/
inductive ExpandedN where
  | done (ys : List DFile)
  | err
  | running
  | panic

/-- yamlfile.go:111-156 `expandDirectories` on a list of pointers. -/
def expandLoopN (fs : Fs) (dir : Str) : Nat → List DFile → List (Option DFile) → ExpandedN
  | _, done, [] => .done done
  | 0, _, _ :: _ => .running
  | _ + 1, _, none :: _ => .panic
  | fuel + 1, done, some y :: ys =>
    if y.path = ['-'] then expandLoopN fs dir fuel (done ++ [y]) ys
    else
      let p := resolvePath dir y.path
      match isDirectory fs p with
      | none => .err
      | some false => expandLoopN fs dir fuel (done ++ [{ y with path := p }]) ys
      | some true =>
        if extOf y.outputPath ≠ [] then .err
        else expandLoopN fs dir fuel done (ys ++ (getFileNames fs p).map (fun q => some (y.forFile q)))

/-! ### The overlay of the command line -/

/-- What `yaml.Unmarshal` makes of a flag's text before decoding: a syntax error, no
document, or a document with its root. (query.go:102-111, action.go:100-144) -/
inductive Flag where
  | bad
  | empty
  | root (n : Node)

/-- query.go:102-111 `Queries.Set`: `none` is an error; the query appended has no
compiled path if nothing was decoded into it (`none`). -/
def setQueryFlag (D : Dec) (f : Flag) (qs : List (Option Query)) : Option (List (Option Query)) :=
  match f with
  | .bad => none
  | .empty => some (qs ++ [none])
  | .root n =>
    match decodeQuery D n with
    | .err => none
    | .skip => some (qs ++ [none])
    | .val q => some (qs ++ [some q])

/-- action.go:77-83 `Action.Set`. -/
def setActionFlag (f : Flag) (a : Action) : Option Action :=
  match f with
  | .bad => none
  | .empty => some a
  | .root n =>
    match decodeAction n with
    | .err => none
    | .skip => some a
    | .val b => some b

/-- config.go:173-179: the value given on the command line, the document unwrapped. -/
def flagValue : Flag → Option Node
  | .bad => none
  | .empty => some zeroNode
  | .root n => some n

/-- The flags `--query` (any number), `--action` (if given) and `--value` (empty text
if not given). (flags.go:148-177) -/
structure CliFlags where
  queries : List Flag
  action : Option Flag
  value : Flag

/-- flags.go:156-161: the action left by the `--action` flag. -/
def CliFlags.readAction (c : CliFlags) : Option Action :=
  match c.action with
  | none => some .invalid
  | some f => setActionFlag f .invalid

/-- All `--query` flags, in order. (query.go:102-111) -/
def setQueryFlags (D : Dec) : List Flag → List (Option Query) → Option (List (Option Query))
  | [], qs => some qs
  | f :: fs, qs =>
    match setQueryFlag D f qs with
    | some qs' => setQueryFlags D fs qs'
    | none => none

/-- flags.go:149-169 and config.go:171-185 `ReadAdHocOverlays`: outer `none` is an
error, inner `none` no overlay.  The overlay has no name.  A query without compiled
path crashes when it is used (query.go:45): it is left as `none` in the list. -/
def adHocOverlay (D : Dec) (c : CliFlags) : Option (Option (List (Option Query) × Overlay)) :=
  match setQueryFlags D c.queries [] with
  | none => none
  | some qs =>
    match c.readAction with
    | none => none
    | some a =>
      if qs.isEmpty then some none
      else match flagValue c.value with
        | none => none
        | some v => some (some (qs, { action := a, value := v }))

/-- query.go:26-30 `Query` with nothing in it: no text, nothing found by it (its path is
nil: see `DOverlay.pathless`). -/
def noQuery : Query := ⟨[], fun _ => []⟩

/-- config.go:171-185: the overlay of the command line as an object like those of the
instructions. -/
def cliOverlay (qs : List (Option Query)) (o : Overlay) : DOverlay :=
  { base := { o with query := qs.map (·.getD noQuery) }, pathless := qs.any Option.isNone }

end Yot
