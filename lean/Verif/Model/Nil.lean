import Verif.Model.Overlay
/-
internal/overlays/{overlay,documentquery,query}.go with the pointers that can be nil: the
items of the lists of an overlay, and the compiled path of a query.
-/
namespace Yot

/-- overlay.go:16-24 `Overlay` as decoded: `base` has all fields but `DocumentQuery`,
which is a list of pointers to lists of pointers.  `pathless`: some query (of the command
line) has no compiled path (query.go:102-111). -/
structure DOverlay where
  base : Overlay := {}
  queries : List (Option (List (Option Condition))) := []
  pathless : Bool := false

/-- documentquery.go:43-66 `checkQuery` with pointers; `none` is a nil dereference. -/
def checkConditionsN : List (Option Condition) → Node → Option Bool
  | [], _ => some true
  | none :: _, _ => none
  | some c :: cs, n => if checkCondition c n then checkConditionsN cs n else some false

/-- documentquery.go:30-36 with pointers: the loop of `checkQueries`. -/
def checkSomeN : List (Option (List (Option Condition))) → Node → Option Bool
  | [], _ => some false
  | none :: _, _ => none
  | some q :: qs, n =>
    match checkConditionsN q n with
    | none => none
    | some true => some true
    | some false => checkSomeN qs n

/-- documentquery.go:23-41 `checkQueries` with pointers. -/
def checkQueriesN (qs : List (Option (List (Option Condition)))) (n : Node) : Option Bool :=
  if qs.isEmpty then some true else checkSomeN qs n

/-- query.go:89-91: a document without content, in which nothing is searched. -/
def emptyDoc (n : Node) : Bool := n.hd.kind = .document && n.content.isEmpty

/-- onmissing.go:52-74 `doInjectPath` at line 65, for queries without compiled path: they are
searched, and so dereferenced, unless the document is (still) without content. -/
def DOverlay.injectNil (E : Sed) (dflt : Str) (o : DOverlay) (doc : Node) : Bool :=
  match (o.base.onMissing.resolve dflt).action, newPaths (o.base.query.map Query.str) with
  | .inject, .ok bps =>
    match buildPaths E bps with
    | .ok y =>
      match mergeNode E doc y with
      | .ok doc' => !emptyDoc doc'
      | _ => false
    | _ => false
  | _, _ => false

/-- overlay.go:26-42 `Apply`, query.go:45: a path is searched that was not compiled. -/
def DOverlay.usesNilPath (E : Sed) (dflt : Str) (o : DOverlay) (doc : Node) : Bool :=
  o.pathless && (!emptyDoc doc || o.injectNil E dflt doc)

/-- overlay.go:26-42 `Apply` of a decoded overlay. -/
def DOverlay.apply (E : Sed) (dflt : Str) (o : DOverlay) (doc : Node) : Res Err Node :=
  match checkQueriesN o.queries doc with
  | none => .panic
  | some false => .ok doc
  | some true =>
    if o.usesNilPath E dflt doc then .panic else Yot.apply E dflt { o.base with documentQuery := [] } doc

/-- overlay.go:26-42 `Apply` dereferences a nil pointer. -/
def DOverlay.nilIn (E : Sed) (dflt : Str) (o : DOverlay) (doc : Node) : Bool :=
  match checkQueriesN o.queries doc with
  | none => true
  | some false => false
  | some true => o.usesNilPath E dflt doc

/-- The overlay with the nil items left out of its document queries. (overlay.go:16-24) -/
def DOverlay.plain (o : DOverlay) : Overlay :=
  { o.base with documentQuery := o.queries.filterMap (fun q => q.map (fun cs => cs.filterMap id)) }

end Yot
