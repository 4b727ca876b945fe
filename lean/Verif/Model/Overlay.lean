import Verif.Model.Builder
/-
internal/overlays/{overlay,query,documentquery,onmissing}.go
-/
namespace Yot

/-- query.go:14-17 `Query`.  `find` is the compiled JSONPath
(`yamlpath.Path.Find`, an external library): the matched nodes, as pointers into
the searched tree; a match is given as the node itself, its `addr` being the
pointer. -/
structure Query where
  str : Str
  find : Node → List Node

/-- query.go:84-100 `Queries.Find`: concatenated results; a document without
content is not searched.  `results == nil` iff the list is empty. -/
def findAll (qs : List Query) (n : Node) : List Node :=
  if n.hd.kind = .document ∧ n.content = [] then []
  else qs.flatMap (fun q => q.find n)

/-- documentquery.go:16-19 `Condition`. -/
structure Condition where
  query : List Query
  value : Node

/-- documentquery.go:12-14 `DocumentQuery` (nil and empty `Conditions` behave the
same). -/
abbrev DocumentQuery := List Condition

/-- `yaml.Node.IsZero` (yaml.v3): all fields have their zero value. (documentquery.go:56) -/
def isZero (n : Node) : Bool :=
  n.hd.kind = .zero && n.hd.style = 0 && n.hd.tag.isEmpty && n.hd.value.isEmpty &&
  n.hd.anchor.isEmpty && !n.hd.hasAlias && n.contentIsNil && n.hd.head.isEmpty &&
  n.hd.line.isEmpty && n.hd.foot.isEmpty && n.hd.row = 0 && n.hd.col = 0

mutual
/-- documentquery.go:44,58 `cmp.Equal` on nodes ignoring comments, position and
style.  `cmp.Equal` distinguishes a nil slice from an empty one.
Simplification: alias targets are not compared here; `Model/Compare` compares them. -/
def cmpEqual : Node → Node → Bool
  | .mk h1 c1, .mk h2 c2 =>
    h1.kind = h2.kind && h1.tag = h2.tag && h1.value = h2.value && h1.anchor = h2.anchor &&
    h1.hasAlias = h2.hasAlias &&
    ((h1.nilc && c1.isEmpty) == (h2.nilc && c2.isEmpty)) && cmpEquals c1 c2
/-- `cmp.Equal` on `Content`. (documentquery.go:58) -/
def cmpEquals : List Node → List Node → Bool
  | [], [] => true
  | x :: xs, y :: ys => cmpEqual x y && cmpEquals xs ys
  | _, _ => false
end

/-- documentquery.go:50-63, one condition. -/
def checkCondition (c : Condition) (n : Node) : Bool :=
  let results := findAll c.query n
  if results.isEmpty then false
  else if isZero c.value then true
  else results.all (fun r => cmpEqual r c.value)

/-- documentquery.go:43-66 `checkQuery`. -/
def checkQuery (dq : DocumentQuery) (n : Node) : Bool := dq.all (fun c => checkCondition c n)

/-- documentquery.go:23-41 `checkQueries`. -/
def checkQueries (dqs : List DocumentQuery) (n : Node) : Bool :=
  if dqs.isEmpty then true else dqs.any (fun q => checkQuery q n)

/-- onmissing.go:25-28 `OnMissing`; `injectPath = none` is a nil slice. -/
structure OnMissing where
  action : OnMissingAction := .default
  injectPath : Option (List Query) := none

/-- overlay.go:16-24 `Overlay`; `documentIndex = none` is a nil slice. -/
structure Overlay where
  name : Str := []
  query : List Query := []
  value : Node := .mk {} []
  action : Action := .invalid
  documentQuery : List DocumentQuery := []
  onMissing : OnMissing := {}
  documentIndex : Option (List Int) := none

/-- overlay.go:83-98 `UnmarshalYAML` after decoding: only the first matching case
of `switch ""` runs. -/
def Overlay.afterDecode (o : Overlay) : Overlay :=
  if o.name = [] then { o with name := joinWith ',' (o.query.map Query.str) }
  else if o.action.str = [] then { o with action := .merge }
  else o

/-- overlay.go:44-56 `CheckDocumentIndex`. -/
def Overlay.checkDocumentIndex (o : Overlay) (current : Int) : Bool :=
  match o.documentIndex with
  | some is => is.any (fun i => current = i)
  | none => true

mutual
/-- Run a mutation of `*p` where `p` points to the node with address `a`: the node
is updated in place in the tree.  If no node of the tree has that address the
pointer leads to a node no longer in the document, and the document is
unaffected. (overlay.go:58-81) -/
def modifyAt (a : Nat) (f : Node → Res Err Node) : Node → Res Err Node
  | .mk h cs =>
    if h.addr = a then f (.mk h cs)
    else modifyAts a f cs >>= fun cs' => .ok (.mk h cs')
/-- `modifyAt` on `Content`. (overlay.go:58-81) -/
def modifyAts (a : Nat) (f : Node → Res Err Node) : List Node → Res Err (List Node)
  | [] => .ok []
  | c :: cs =>
    modifyAt a f c >>= fun c' =>
    modifyAts a f cs >>= fun cs' => .ok (c' :: cs')
end

/-- overlay.go:62-77, one iteration of `doAction` for the match at address `a`. -/
def doOne (E : Sed) (o : Overlay) (root : Node) (a : Nat) : Res Err Node :=
  match o.action with
  | .delete => deleteNode a root
  | .replace => modifyAt a (fun n => .ok (replaceNode E n o.value)) root
  | .combine => modifyAt a (fun n => combineNode E n o.value) root
  | _ => modifyAt a (fun n => mergeNode E n o.value) root

/-- overlay.go:58-81 `doAction`. -/
def doAction (E : Sed) (o : Overlay) (root : Node) (nodes : List Node) : Res Err Node :=
  nodes.foldlM (fun r n => doOne E o r n.hd.addr) root

/-- `strings.EqualFold(s, "inject")`: none of its letters has a non-ASCII fold. (onmissing.go:32) -/
def isInjectWord (s : Str) : Bool := s.map Char.toLower = c!"inject"

/-- onmissing.go:31-35: the overlay's action after the configured default has
been filled in (a mutation of the shared overlay). -/
def OnMissing.resolve (dflt : Str) (m : OnMissing) : OnMissing :=
  if m.action = .default ∧ isInjectWord dflt then { m with action := .inject } else m

/-- The overlay after `onMissing` ran once. (onmissing.go:30-38) -/
def Overlay.resolve (dflt : Str) (o : Overlay) : Overlay :=
  { o with onMissing := o.onMissing.resolve dflt }

/-- onmissing.go:65-73: replace each match of the inject path. -/
def replaceAllAt (E : Sed) (value : Node) (root : Node) (nodes : List Node) : Res Err Node :=
  nodes.foldlM (fun r n => modifyAt n.hd.addr (fun x => .ok (replaceNode E x value)) r) root

/-- onmissing.go:52-74 `doInjectPath`.  `y, _ := bps.BuildPaths()`: an error there
would leave `y` nil, which `MergeNode` dereferences.  The document is given fresh
addresses before the second search because merging may have added nodes. -/
def doInjectPath (E : Sed) (o : Overlay) (ip : List Query) (node : Node) : Res Err Node :=
  newPaths (ip.map Query.str) >>= fun bps =>
    match buildPaths E bps with
    | .ok y =>
      mergeNode E node y >>= fun node1 =>
        let node2 := node1.label
        replaceAllAt E o.value node2 (findAll ip node2)
    | _ => .panic

/-- onmissing.go:76-93 `handleInjectPath`. -/
def handleInjectPath (E : Sed) (o : Overlay) (node : Node) : Res Err Node :=
  match newPaths (o.query.map Query.str) with
  | .err .invalidPathSyntax =>
    match o.onMissing.injectPath with
    | none => .ok node
    | some ip => doInjectPath E o ip node
  | .err e => .err e
  | .panic => .panic
  | .ok _ => doInjectPath E o o.query node

/-- onmissing.go:30-50 `onMissing`. -/
def onMissing (E : Sed) (dflt : Str) (o : Overlay) (node : Node) : Res Err Node :=
  match (o.onMissing.resolve dflt).action with
  | .inject => handleInjectPath E o node
  | _ => .ok node

/-- overlay.go:26-42 `Apply` to a document whose nodes have distinct addresses. -/
def apply (E : Sed) (dflt : Str) (o : Overlay) (doc : Node) : Res Err Node :=
  if !checkQueries o.documentQuery doc then .ok doc
  else
    let results := findAll o.query doc
    if results.isEmpty then onMissing E dflt o doc
    else doAction E o doc results

/-- `Apply` to a document as it stands after earlier overlays: its nodes have some
distinct addresses. (workstream.go:44-54, overlay.go:26-42) -/
def applyJob (E : Sed) (dflt : Str) (o : Overlay) (doc : Node) : Res Err Node :=
  apply E dflt o doc.label

end Yot
