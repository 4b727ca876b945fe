import Verif.Model.Str
/-
The functions of Go's packages `path` and `path/filepath` (on Unix) that yot uses,
specified from their documentation.
-/
namespace Yot

/-- One path element in `path.Clean`; the stack holds the elements kept so far,
last first. (utils.go:41-47) -/
def cleanStep (rooted : Bool) (stack : List Str) (c : Str) : List Str :=
  if c = [] ∨ c = ['.'] then stack
  else if c = ['.', '.'] then
    match stack with
    | [] => if rooted then [] else [['.', '.']]
    | t :: r => if t = ['.', '.'] then ['.', '.'] :: t :: r else r
  else c :: stack

/-- `path.IsAbs`. (yamlfile.go:121, config.go:80) -/
def isAbs (s : Str) : Bool := s.head? = some '/'

/-- `path.Clean`. (utils.go:41-47) -/
def clean (s : Str) : Str :=
  let comps := ((splitOn '/' s).foldl (cleanStep (isAbs s)) []).reverse
  if isAbs s then '/' :: joinWith '/' comps
  else if comps = [] then ['.'] else joinWith '/' comps

/-- The text after the last slash. (instructions.go:134) -/
def afterSlash (s : Str) : Str := (s.reverse.takeWhile (· ≠ '/')).reverse

/-- The text up to and including the last slash. (instructions.go:85, utils.go:41) -/
def uptoSlash (s : Str) : Str := (s.reverse.dropWhile (· ≠ '/')).reverse

/-- `path.Dir`. (instructions.go:85, utils.go:41) -/
def dirOf (s : Str) : Str := clean (uptoSlash s)

/-- `path.Base`. (instructions.go:134) -/
def baseOf (s : Str) : Str :=
  if s = [] then ['.']
  else
    let t := (s.reverse.dropWhile (· = '/')).reverse
    if t = [] then ['/'] else afterSlash t

/-- `path.Ext`, `filepath.Ext`: from the last dot of the last element on. (instructions.go:133, utils.go:97, yamlfile.go:128) -/
def extOf (s : Str) : Str :=
  let e := s.reverse.takeWhile (· ≠ '/')
  let t := e.takeWhile (· ≠ '.')
  if t.length = e.length then [] else '.' :: t.reverse

/-- `path.Join`, `filepath.Join`. (yamlfile.go:122, instructions.go:134, config.go:81) -/
def pathJoin (es : List Str) : Str :=
  let es := es.filter (· ≠ [])
  if es = [] then [] else clean (joinWith '/' es)

end Yot
