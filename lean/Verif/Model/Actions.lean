import Verif.Model.Format
/-
internal/actions/{merge,replace,delete,combine,style,action}.go on trees.

A Go function that mutates `*o` becomes a function returning the new `o`.
On an error Go leaves `*o` partly updated; the run then aborts for that file and
never renders it (see `Model/Execute`), so the partial update is dropped.
-/
namespace Yot

/-- The errors the actions can return (merge.go:15-20, combine.go:14-15, the
`strconv` errors of combine.go:26-49). -/
inductive Err where
  | mergeUnsupportedType
  | combineOnlyForScalars
  | notAnInt
  | notABool
  | invalidPathSyntax
  | wildCardNotAllowed
  | invalidAction
deriving DecidableEq, Repr

/-- merge.go:173-187 / 141-157: what `value` and `keyName` are, from the variadic
arguments. -/
def valueAndKey (o : Hdr) : List Str → Str × Str
  | [] => (o.value, [])
  | [k] => (o.value, k)
  | v :: k :: _ => (v, k)

/-- merge.go:173-187: the arguments handed to `format`. -/
def formatVals (o : Hdr) (vals : List Str) : Vals :=
  { v := (valueAndKey o vals).1
    l := trimPrefix ['#'] o.line
    h := trimPrefix ['#'] o.head
    f := trimPrefix ['#'] o.foot
    k := (valueAndKey o vals).2 }

/-- merge.go:168-201 `mergeComments`, including the `fallthrough`s. -/
def mergeComments (E : Sed) (o n : Hdr) (vals : List Str) : Hdr :=
  let x := formatVals o vals
  if n.head ≠ [] then
    { o with head := format E n.head x, line := format E n.line x, foot := format E n.foot x }
  else if n.line ≠ [] then
    { o with line := format E n.line x, foot := format E n.foot x }
  else if n.foot ≠ [] then
    { o with foot := format E n.foot x }
  else o

/-- merge.go:136-166 `mergeScalar`. -/
def mergeScalar (E : Sed) (o : Node) (n : Hdr) (vals : List Str) : Node :=
  let x := formatVals o.hd vals
  let h := mergeComments E o.hd n vals
  if o.hd.kind ≠ .scalar then
    .mk { h with kind := .scalar, nilc := true, value := format E n.value x } []
  else
    .mk { h with value := format E n.value x } o.content

/-- `append(o.Content, xs...)`. (merge.go:212) -/
def appendContent (o : Node) (xs : List Node) : Node :=
  .mk { o.hd with nilc := o.hd.nilc && xs.isEmpty } (o.content ++ xs)

/-- merge.go:203-215 `addNode`: deep copy, sanitize, append.
`reprint.FromTo` is taken to succeed. -/
def addNode (E : Sed) (o : Node) (nv : List Node) : Node :=
  appendContent o (sanitizeNodes E (Node.freshs nv))

/-- merge.go:73-78: turn a non-mapping into an empty mapping. -/
def toMapping (o : Node) : Node :=
  if o.hd.kind ≠ .mapping then
    .mk { o.hd with kind := .mapping, tag := c!"!!map", value := [], nilc := false } []
  else o

/-- merge.go:118-123: turn a non-sequence into an empty sequence. -/
def toSequence (o : Node) : Node :=
  if o.hd.kind ≠ .sequence then
    .mk { o.hd with kind := .sequence, tag := c!"!!seq", value := [], nilc := false } []
  else o

/-- merge.go:117-134 `mergeArray`. -/
def mergeArray (E : Sed) (o n : Node) : Node :=
  let o1 := toSequence o
  if n.contentIsNil then o1
  else addNode E (.mk (mergeComments E o1.hd n.hd [o1.hd.value]) o1.content) n.content

/-- merge.go:80-105, the inner loop of `mergeMap` for one overlay entry with key
header `nk`; `f x key` is `merge(x, n.Content[ni+1], key)`.  Returns the new
children and `resultFound`. -/
def mergeInner (E : Sed) (f : Node → Str → Res Err Node) (nk : Hdr) :
    List Node → Res Err (List Node × Bool)
  | k :: v :: rest =>
    if !checkForMarkers nk.value && k.hd.value ≠ nk.value then do
      let r ← mergeInner E f nk rest
      pure (k :: v :: r.1, r.2)
    else
      let keyName := k.hd.value
      let value := v.hd.value
      let k1 : Node := .mk (mergeComments E k.hd nk [value, keyName]) k.content
      f v keyName >>= fun v' =>
        if !checkForMarkers nk.value then
          pure (k1 :: v' :: rest, true)
        else do
          let r ← mergeInner E f nk rest
          pure (mergeScalar E k1 nk [value, keyName] :: v' :: r.1, true)
  | l => pure (l, false)

mutual
/-- merge.go:38-55 `merge` (with 57-67 `mergeDocument`, 69-115 `mergeMap`). -/
def merge (E : Sed) (o : Node) (vals : List Str) : Node → Res Err Node
  | .mk nh ncs =>
    match nh.kind with
    | .document =>
      -- merge.go:57-67; `Content[0]` of an empty non-nil slice panics
      if o.contentIsNil || (nh.nilc && ncs.isEmpty) then .ok o
      else match o.content, ncs with
        | oc :: ocs, nc :: _ =>
          merge E oc [o.hd.value] nc >>= fun oc' =>
            .ok (.mk (mergeComments E o.hd nh [o.hd.value]) (oc' :: ocs))
        | _, _ => .panic
    | .mapping => mergeEntries E o ncs
    | .sequence => .ok (mergeArray E o (.mk nh ncs))
    | .scalar =>
      let o' := mergeScalar E o nh vals
      .ok (.mk { o'.hd with tag := nh.tag } o'.content)
    | .alias => .err .mergeUnsupportedType
    | .zero => .ok (.mk { o.hd with tag := nh.tag } o.content)
/-- merge.go:69-115 `mergeMap`: the outer loop over the overlay's entries. -/
def mergeEntries (E : Sed) (o : Node) : List Node → Res Err Node
  | nk :: nv :: rest =>
    let o1 := toMapping o
    mergeInner E (fun x key => merge E x [key] nv) nk.hd o1.content >>= fun r =>
      let o2 : Node := .mk o1.hd r.1
      mergeEntries E (if r.2 then o2 else addNode E o2 [nk, nv]) rest
  | _ => .ok o
end

/-- merge.go:22-36 `MergeNode(o, n)` for two nodes. -/
def mergeNode (E : Sed) (o n : Node) : Res Err Node := merge E o [] n

/-- merge.go:22-36 `MergeNode(nodes...)`: returns the new `nodes[0]`, if any. -/
def mergeNodes (E : Sed) : List Node → Res Err (Option Node)
  | [] => .ok none
  | o :: ns => do
    let r ← ns.foldlM (fun acc n => mergeNode E acc n) o
    pure (some r)

/-- replace.go:13-26 `ReplaceNode`. `*original` is overwritten in place, so it
keeps its address. -/
def replaceNode (E : Sed) (original replace : Node) : Node :=
  let copy := replace.fresh
  let ov := mergeComments E original.hd copy.hd []
  .mk { copy.hd with addr := original.hd.addr, head := ov.head, line := ov.line, foot := ov.foot }
    copy.content

/-- delete.go:24-52 for a child found at index `i` of `pn.Content`: the bounds of
the slot range to cut, `[i-start, i+end)`.  Sequence and document cut one slot,
anything else the key/value pair `i` belongs to. -/
def cutRange (kind : Kind) (i : Nat) : Nat × Nat :=
  if kind = .sequence ∨ kind = .document then (i, i + 1)
  else if i % 2 = 0 then (i, i + 2)
  else (i - 1, i + 1)

/-- delete.go:50-52: `copy(Content[i-start:], Content[i+end:])` and truncation by
the number of slots cut; `Content[i+end:]` panics beyond the length. -/
def deleteIndex (kind : Kind) (i : Nat) (cs : List Node) : Res Err (List Node) :=
  let r := cutRange kind i
  if r.2 ≤ cs.length then .ok (cs.take r.1 ++ cs.drop r.2) else .panic

mutual
/-- delete.go:10-56 `DeleteNode(pn, child)`: look through `pn.Content` in order;
a child that is not the target is searched recursively, the target itself is cut
out and the loop ends. -/
def deleteNode (a : Nat) : Node → Res Err Node
  | .mk h cs =>
    deleteScan a cs >>= fun r =>
      match r.2 with
      | none => .ok (.mk h r.1)
      | some i => deleteIndex h.kind i r.1 >>= fun cs' => .ok (.mk { h with nilc := false } cs')
/-- delete.go:11-20, the loop: the children with those before the target
searched recursively, and the index of the target if it is a direct child. -/
def deleteScan (a : Nat) : List Node → Res Err (List Node × Option Nat)
  | [] => .ok ([], none)
  | c :: cs =>
    if c.hd.addr = a then .ok (c :: cs, some 0)
    else
      deleteNode a c >>= fun c' =>
      deleteScan a cs >>= fun r =>
        .ok (c' :: r.1, r.2.map (· + 1))
end

/-- Optional sign and decimal digits as accepted by `strconv.Atoi`, before the
range check. (combine.go:26-31) -/
def parseDigits : Str → Option Nat
  | [] => none
  | cs => cs.foldl (fun acc c =>
      acc.bind fun n => if c.isDigit then some (n * 10 + (c.toNat - 48)) else none) (some 0)

/-- Unchecked `strconv.Atoi`. (combine.go:26-31) -/
def parseInt (s : Str) : Option Int :=
  match s with
  | '-' :: t => (parseDigits t).map (fun n => -(n : Int))
  | '+' :: t => (parseDigits t).map (fun n => (n : Int))
  | t => (parseDigits t).map (fun n => (n : Int))

/-- `math.MinInt64`, `math.MaxInt64` (Go `int` on 64-bit platforms). (combine.go:26-36) -/
def minInt64 : Int := -9223372036854775808
/-- `math.MaxInt64` (combine.go:26-36). -/
def maxInt64 : Int := 9223372036854775807

/-- `strconv.Atoi`. (combine.go:26-34) -/
def atoi (s : Str) : Option Int :=
  match parseInt s with
  | some x => if minInt64 ≤ x ∧ x ≤ maxInt64 then some x else none
  | none => none

/-- Two's complement wrap-around of Go's `int` addition. (combine.go:36) -/
def wrap64 (x : Int) : Int := (x + 9223372036854775808) % 18446744073709551616 - 9223372036854775808

/-- Decimal digits of `n`, least significant first (`fuel > n` suffices). (combine.go:36) -/
def natDigitsRev : Nat → Nat → Str
  | 0, _ => []
  | fuel + 1, n =>
    if n < 10 then [Char.ofNat (48 + n)]
    else Char.ofNat (48 + n % 10) :: natDigitsRev fuel (n / 10)

/-- Decimal text of a natural number. (combine.go:36) -/
def natToStr (n : Nat) : Str := (natDigitsRev (n + 1) n).reverse

/-- `strconv.Itoa`. (combine.go:36) -/
def itoa (x : Int) : Str :=
  match x with
  | .ofNat n => natToStr n
  | .negSucc n => '-' :: natToStr (n + 1)

/-- `strconv.ParseBool`. (combine.go:41-49) -/
def parseBool (s : Str) : Option Bool :=
  if s ∈ [c!"1", c!"t", c!"T", c!"TRUE", c!"true", c!"True"] then some true
  else if s ∈ [c!"0", c!"f", c!"F", c!"FALSE", c!"false", c!"False"] then some false
  else none

/-- `strconv.FormatBool`. (combine.go:51) -/
def formatBool (b : Bool) : Str := if b then c!"true" else c!"false"

/-- combine.go:17-59 `CombineNode`. -/
def combineNode (E : Sed) (o n : Node) : Res Err Node :=
  if o.hd.kind ≠ .scalar ∨ n.hd.kind ≠ .scalar then .err .combineOnlyForScalars
  else
    let h := mergeComments E o.hd n.hd []
    if h.tag = c!"!!int" then
      match atoi h.value, atoi n.hd.value with
      | some a, some b => .ok (.mk { h with value := itoa (wrap64 (a + b)) } o.content)
      | _, _ => .err .notAnInt
    else if h.tag = c!"!!bool" then
      match parseBool h.value, parseBool n.hd.value with
      | some a, some b => .ok (.mk { h with value := formatBool (a && b) } o.content)
      | _, _ => .err .notABool
    else .ok (.mk { h with value := h.value ++ n.hd.value } o.content)

/-- action.go:20-33 `Action`. -/
inductive Action where
  | invalid | merge | replace | delete | combine
deriving DecidableEq, Repr

/-- action.go:35-45 `Action.String`. -/
def Action.str : Action → Str
  | .invalid => []
  | .merge => c!"merge"
  | .replace => c!"replace"
  | .delete => c!"delete"
  | .combine => c!"combine"

/-- action.go:56-62, the lookup table; a missing key yields the zero value. -/
def actionOfName (y : Str) : Action :=
  if y = c!"merge" then .merge
  else if y = c!"replace" then .replace
  else if y = c!"delete" then .delete
  else if y = c!"combine" then .combine
  else .invalid

/-- action.go:47-71 `Action.UnmarshalYAML` on the decoded text. -/
def parseAction (y : Str) : Res Err Action :=
  let a := actionOfName (toLowerStr y)
  if a = .invalid then .err .invalidAction else .ok a

/-- action.go:89-98 `OnMissingAction`. -/
inductive OnMissingAction where
  | default | ignore | inject
deriving DecidableEq, Repr

/-- action.go:100-108 `OnMissingAction.String`. -/
def OnMissingAction.str : OnMissingAction → Str
  | .default => c!"default"
  | .ignore => c!"ignore"
  | .inject => c!"inject"

/-- action.go:110-128 `OnMissingAction.UnmarshalYAML`: unknown words give the
zero value `Default`. -/
def parseOnMissing (y : Str) : OnMissingAction :=
  let y := toLowerStr y
  if y = c!"ignore" then .ignore
  else if y = c!"inject" then .inject
  else .default

/-- style.go:16-31 `Style` constants. -/
inductive StyleName where
  | tagged | doubleQuoted | singleQuoted | literal | folded | flow | normal
deriving DecidableEq, Repr

/-- style.go:16-31, `1 << iota`. -/
def StyleName.bit : StyleName → Nat
  | .tagged => 1
  | .doubleQuoted => 2
  | .singleQuoted => 4
  | .literal => 8
  | .folded => 16
  | .flow => 32
  | .normal => 64

/-- style.go:33-45 `Style.String` on a single style. -/
def StyleName.str : StyleName → Str
  | .tagged => c!"tagged"
  | .doubleQuoted => c!"doubleQuoted"
  | .singleQuoted => c!"singleQuoted"
  | .literal => c!"literal"
  | .folded => c!"folded"
  | .flow => c!"flow"
  | .normal => c!"normal"

/-- style.go:59-66 `Styles.GetStyle`: the sum; then `yaml.Style(s)` (a uint32)
of style.go:77/81. -/
def getStyle (ss : List StyleName) : Nat := ((ss.map StyleName.bit).sum) % 4294967296

mutual
/-- style.go:73-84 `setStyle` with the style already combined. -/
def setStyle (s : Nat) : Node → Node
  | .mk h cs =>
    match h.kind with
    | .zero => .mk h cs
    | .scalar => .mk { h with style := s } cs
    | _ => .mk { h with style := s } (setStyles s cs)
/-- style.go:73-84 over the variadic argument. -/
def setStyles (s : Nat) : List Node → List Node
  | [] => []
  | c :: cs => setStyle s c :: setStyles s cs
end

/-- style.go:92-107, the switch on one (lower-cased) name. -/
def styleOfName (s : Str) : Option StyleName :=
  if s ∈ [c!"normal", c!"n"] then some .normal
  else if s ∈ [c!"tagged", c!"tag", c!"t"] then some .tagged
  else if s ∈ [c!"doublequoted", c!"doublequote", c!"double", c!"dq"] then some .doubleQuoted
  else if s ∈ [c!"singlequoted", c!"singlequote", c!"single", c!"sq"] then some .singleQuoted
  else if s ∈ [c!"literal", c!"l"] then some .literal
  else if s ∈ [c!"folded", c!"fold", c!"fo"] then some .folded
  else if s ∈ [c!"flow", c!"fl"] then some .flow
  else none

/-- style.go:86-112 `GetStyleFromConfig`. -/
def getStyleFromConfig (v : List Str) : List StyleName :=
  v.flatMap fun ss =>
    (splitOn ',' (trimSet c!"[]" (toLowerStr ss))).filterMap styleOfName

/-- style.go:47-57 `Styles.FlagMap`: the names `--output-style` accepts, the first
of each being the one printed. (The spelling `singleQoute` is the code's.) -/
def flagMap : List (StyleName × List Str) :=
  [(.normal, [c!"normal", c!"n"]),
   (.tagged, [c!"tagged", c!"tag", c!"t"]),
   (.doubleQuoted, [c!"doubleQuoted", c!"doubleQuote", c!"double", c!"dq"]),
   (.singleQuoted, [c!"singleQuoted", c!"singleQoute", c!"single", c!"sq"]),
   (.literal, [c!"literal", c!"l"]),
   (.folded, [c!"folded", c!"fold", c!"fo"]),
   (.flow, [c!"flow", c!"fl"])]

/-- commands/flags.go:86-91, the enumflag library with `EnumCaseInsensitive`: one
name given on the command line (external; modelled from its documentation). -/
def styleOfFlag (n : Str) : Option StyleName :=
  (flagMap.find? (fun e => e.2.any (fun a => toLowerStr a = toLowerStr n))).map (·.1)

/-- commands/flags.go:86-91, the enumflag library: names separated by commas; an
unknown name is an error (`none`). External; modelled from its documentation. -/
def stylesOfFlag (s : Str) : Option (List StyleName) :=
  (splitOn ',' s).foldr (fun n r => match styleOfFlag n, r with
    | some x, some xs => some (x :: xs)
    | _, _ => none) (some [])

/-- commands/flags.go:86-91 and 107-109: the text the flag's value has for viper, the
first name of each style in brackets. External; modelled from its documentation. -/
def showStyles (ss : List StyleName) : Str :=
  c!"[" ++ joinWith ',' (ss.map (fun s => ((flagMap.lookup s).getD []).headD [])) ++ c!"]"

end Yot
