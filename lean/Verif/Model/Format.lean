import Verif.Model.Node
/-
internal/actions/format.go and internal/actions/markers.go
-/
namespace Yot

/-- The sed engine (github.com/rwtodd/Go.Sed), a parameter.
`compile c` : `sed.New(c)` succeeds; `run c v` : text returned by `RunString(v)`
and whether it returned without error. (format.go:104-120) -/
structure Sed where
  compile : Str → Bool
  run : Str → Str → Str × Bool

/-- markers.go:10-21, the five format markers. -/
def markerV : Str := ['%', 'v']
/-- The marker of the line comment (markers.go:10-26). -/
def markerL : Str := ['%', 'l']
/-- The marker of the head comment (markers.go:10-26). -/
def markerH : Str := ['%', 'h']
/-- The marker of the foot comment (markers.go:10-26). -/
def markerF : Str := ['%', 'f']
/-- The marker of the key (markers.go:10-26). -/
def markerK : Str := ['%', 'k']

/-- The marker list in the order used everywhere (markers.go:24-30,
format.go:41-47, 57-63). -/
def markers : List Str := [markerV, markerL, markerH, markerF, markerK]

/-- markers.go:23-37 `checkForMarkers`. -/
def checkForMarkers (s : Str) : Bool := markers.any (fun m => containsSub m s)

/-- The five arguments of `format`, in order: value, line, head, foot, key. (format.go:20-71) -/
structure Vals where
  v : Str := []
  l : Str := []
  h : Str := []
  f : Str := []
  k : Str := []
deriving DecidableEq, Repr

/-- format.go:40-54 `sanitizeValues` on one value: each marker removed in turn,
one pass each. -/
def sanitizeStr (s : Str) : Str :=
  markers.foldl (fun acc m => removeAll m acc) s

/-- format.go:40-54 `sanitizeValues`. -/
def sanitizeVals (x : Vals) : Vals :=
  ⟨sanitizeStr x.v, sanitizeStr x.l, sanitizeStr x.h, sanitizeStr x.f, sanitizeStr x.k⟩

/-- The letters accepted by `%[vklfh]` (format.go:73). -/
def isMarkerChar (c : Char) : Bool :=
  c = 'v' || c = 'k' || c = 'l' || c = 'f' || c = 'h'

/-- format.go:65-71 `valueMap`. -/
def Vals.get (x : Vals) (c : Char) : Str :=
  if c = 'v' then x.v
  else if c = 'l' then x.l
  else if c = 'h' then x.h
  else if c = 'f' then x.f
  else if c = 'k' then x.k
  else []

/-- `.*?}` of the regexp: the shortest text without newline up to a `}`. (format.go:73) -/
def lazyUntilBrace : Str → Option Str
  | [] => none
  | c :: t =>
    if c = '}' then some []
    else if c = '\n' then none
    else (lazyUntilBrace t).map (c :: ·)

/-- The optional group `({(.*?)})?` at the start of the text. (format.go:73) -/
def commandAt : Str → Option Str
  | '{' :: t => lazyUntilBrace t
  | _ => none

/-- One regexp match: the marker letter and the command when the braces are
present. (format.go:73-102) -/
structure Mtch where
  letter : Char
  cmd : Option Str
deriving DecidableEq, Repr

/-- `match[0]`, the matched text. (format.go:98) -/
def Mtch.text (m : Mtch) : Str :=
  '%' :: m.letter :: (match m.cmd with | none => [] | some c => '{' :: c ++ ['}'])

/-- The match of format.go:73 starting at the head of the text, if any. -/
def matchAt : Str → Option Mtch
  | '%' :: c :: t => if isMarkerChar c then some ⟨c, commandAt t⟩ else none
  | _ => none

/-- format.go:75 `re.FindAllStringSubmatch(s, -1)`: leftmost non-overlapping
matches; the first argument counts characters of the last match still to skip. -/
def findMatchesGo : Nat → Str → List Mtch
  | _, [] => []
  | k + 1, _ :: t => findMatchesGo k t
  | 0, c :: t =>
    match matchAt (c :: t) with
    | some m => m :: findMatchesGo (m.text.length - 1) t
    | none => findMatchesGo 0 t

/-- format.go:73-75. -/
def findMatches (s : Str) : List Mtch := findMatchesGo 0 s

/-- format.go:105-120 `processSedCommand`; on error the text so far is returned
(the caller only logs the error). -/
def processSed (E : Sed) (cmd value : Str) : Str :=
  if E.compile cmd then
    let r := E.run cmd value
    if r.2 then trimPrefix ['\n'] (trimSuffix ['\n'] r.1) else r.1
  else value

/-- format.go:86-96: the replacement text of one match. -/
def substFor (E : Sed) (x : Vals) (m : Mtch) : Str :=
  match m.cmd with
  | none => x.get m.letter
  | some c => if c.isEmpty then x.get m.letter else processSed E c (x.get m.letter)

/-- format.go:56-103 `doFormat`: the matches are found once; each is then
replaced by rewriting the first occurrence of its text in the current string. -/
def doFormat (E : Sed) (x : Vals) (s : Str) : Str :=
  (findMatches s).foldl (fun acc m => replaceFirst m.text (substFor E x m) acc) s

/-- format.go:15-19 `format`. -/
def format (E : Sed) (s : Str) (x : Vals) : Str := doFormat E (sanitizeVals x) s

/-- format.go:33-36: the strings of one node rewritten with empty values. -/
def sanitizeHdr (E : Sed) (h : Hdr) : Hdr :=
  { h with
    value := format E h.value {}
    head := format E h.head {}
    line := format E h.line {}
    foot := format E h.foot {} }

mutual
/-- format.go:21-38 `sanitizeNode`.  Simplification: the recursion into
`Content` is unconditional; the Go switch skips only scalars, which have none. -/
def sanitizeNode (E : Sed) : Node → Node
  | .mk h cs => .mk (sanitizeHdr E h) (sanitizeNodes E cs)
/-- format.go:21-38 over the variadic argument. -/
def sanitizeNodes (E : Sed) : List Node → List Node
  | [] => []
  | c :: cs => sanitizeNode E c :: sanitizeNodes E cs
end

end Yot
