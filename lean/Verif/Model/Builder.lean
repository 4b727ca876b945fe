import Verif.Model.Lexer
/-
internal/builder/path.go
-/
namespace Yot

/-- path.go:326-349 `unescape`; the flag is `escaped`. -/
def unescapeGo : Bool → Str → Str
  | _, [] => []
  | escaped, c :: t =>
    if c = '\\' then
      if escaped then c :: unescapeGo false t else unescapeGo true t
    else c :: unescapeGo false t

/-- path.go:326-349 `unescape`. -/
def unescape (s : Str) : Str := unescapeGo false s

/-- path.go:252-274 `balanced`; `prev` is `none` for eof. -/
def balancedGo (q : Char) : Bool → Option Char → Str → Bool
  | bal, _, [] => bal
  | bal, prev, c :: t =>
    if c = q ∧ prev ≠ some '\\' then balancedGo q (!bal) (some c) t
    else balancedGo q bal (some c) t

/-- path.go:252-274 `balanced`. -/
def balanced (s : Str) (q : Char) : Bool := balancedGo q true none s

/-- path.go:213-233, the loop that reconstitutes names with embedded commas:
current partial `name`, remaining fragments. -/
def regroup : Str → List Str → List Str
  | name, [] => if name.isEmpty then [] else [name]
  | name, c :: cs =>
    if balanced c '\'' && balanced c '"' then
      if name.isEmpty then c :: regroup [] cs
      else regroup (name ++ ',' :: c) cs
    else if name.isEmpty then regroup c cs
    else (name ++ ',' :: c) :: regroup [] cs

/-- path.go:237-247, unquote one child. -/
def unquoteChild (c : Str) : Str :=
  let c := trimSpace c
  let c := if hasPrefix ['\''] c then trimSuffix ['\''] (trimPrefix ['\''] c)
           else trimSuffix ['"'] (trimPrefix ['"'] c)
  unescape c

/-- path.go:207-250 `bracketChildNames`. -/
def bracketChildNames (s : Str) : List Str :=
  (regroup [] (splitOn ',' s)).map unquoteChild

/-- path.go:110-112: text between the brackets. -/
def bracketBody (v : Str) : Str :=
  trimSpace (trimSuffix [']'] (trimPrefix ['['] (trimSpace v)))

/-- path.go:144-159 `identity`: the empty leaf. -/
def leafNode : Node := .mk { kind := .scalar } []

/-- A key node as built at path.go:182-195 / 302-315. -/
def keyNode (name : Str) : Node := .mk { kind := .scalar, value := name } []

/-- path.go:284-323: a mapping from each name to (a fresh copy of) `sub`; with one
name this is path.go:173-204. -/
def mapNode (names : List Str) (sub : Node) : Node :=
  .mk { kind := .mapping, nilc := false } (names.flatMap fun n => [keyNode n, sub])

/-- path.go:79-94: the document node. -/
def docNode (sub : Node) : Node := .mk { kind := .document, nilc := false } [sub]

/-- path.go:63-118 `newPath` over the lexemes (161-205 `childThen`, 276-324
`bracketChildThen`).  The closures `f` are represented by the tree they build;
an exhausted lexer yields `lexemeEOF` (lexer.go:94-98). -/
def newPath : List Lexeme → Res Err Node
  | [] => .ok leafNode
  | lx :: ls =>
    match lx.typ with
    | .error => .err .invalidPathSyntax
    | .identity => .ok leafNode
    | .eof => .ok leafNode
    | .root => newPath ls >>= fun sub => .ok (docNode sub)
    | .dotChild =>
      let childName := trimPrefix ['.'] lx.val
      if childName = ['*'] then .err .invalidPathSyntax
      else
        let childName := unescape childName
        if childName = ['*'] then .err .wildCardNotAllowed
        else newPath ls >>= fun sub => .ok (mapNode [unescape childName] sub)
    | .undottedChild =>
      if lx.val = ['*'] then .err .wildCardNotAllowed
      else newPath ls >>= fun sub => .ok (mapNode [unescape lx.val] sub)
    | .bracketChild =>
      newPath ls >>= fun sub => .ok (mapNode (bracketChildNames (bracketBody lx.val)) sub)

/-- path.go:37-46 `NewPath` followed by `BuildPath` (140-142). -/
def buildPath (path : Str) : Res Err Node :=
  match lexAll path with
  | .done ls => newPath ls
  | _ => .panic

/-- path.go:48-61 `NewPaths`: the built tree per path, stopping at the first
error. -/
def newPaths (paths : List Str) : Res Err (List Node) := paths.mapM buildPath

/-- path.go:120-137 `BuildPaths`; `yamlNodes[0]` of an empty list panics. -/
def buildPaths (E : Sed) (nodes : List Node) : Res Err Node :=
  mergeNodes E nodes >>= fun r =>
    match r with
    | some n => .ok n
    | none => .panic

end Yot
