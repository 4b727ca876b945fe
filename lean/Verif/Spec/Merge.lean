import Verif.Model.Node
import Verif.Spec.Text
/-
Specification: YAML content as plain data, and deep merge.  Nothing here refers to
the merge model.
-/
namespace Yot.Spec

/-- A mapping key: its tag and its text. -/
structure Key where
  tag : Str
  text : Str
deriving DecidableEq, Repr

/-- YAML data: no comments, styles, positions or anchors.  An alias stands for
itself, by name. -/
inductive Val where
  | «alias» (name : Str)
  | scalar (tag text : Str)
  | seq (tag : Str) (items : List Val)
  | map (tag : Str) (entries : List (Key × Val))
deriving Repr

/-- `f` on the first entry whose key has the text of `k`; a new last entry
`(k, new)` if there is none. -/
def setKey (k : Key) (new : Val) (f : Val → Val) : List (Key × Val) → List (Key × Val)
  | [] => [(k, new)]
  | e :: r => if e.1.text = k.text then (e.1, f e.2) :: r else e :: setKey k new f r

/-- The value as a mapping: anything else is discarded for an empty mapping. -/
def asMap : Val → Str × List (Key × Val)
  | .map t es => (t, es)
  | _ => (c!"!!map", [])

mutual
/-- Deep merge of the second value into the first: a scalar replaces; a sequence
is appended to a sequence and replaces anything else; the entries of a mapping
are put into the target one by one (an empty mapping asks for nothing).  The
alias case is not used: overlays with aliases are excluded. -/
def deepMerge (a : Val) : Val → Val
  | .alias name => .alias name
  | .scalar t s => .scalar t s
  | .seq _ ys =>
    match a with
    | .seq t xs => .seq t (xs ++ ys)
    | _ => .seq c!"!!seq" ys
  | .map _ es => putAll a es
/-- Put entries into a mapping in order: a key that is there has its value merged,
a key that is not is added at the end. -/
def putAll (a : Val) : List (Key × Val) → Val
  | [] => a
  | (k, v) :: es => putAll (.map (asMap a).1 (setKey k v (fun old => deepMerge old v) (asMap a).2)) es
end

mutual
/-- No text in the data contains a format marker, and there are no aliases. -/
def Val.NoMarkers : Val → Prop
  | .alias _ => False
  | .scalar _ s => NoMarker s
  | .seq _ xs => NoMarkersL xs
  | .map _ es => NoMarkersE es
/-- On lists. -/
def NoMarkersL : List Val → Prop
  | [] => True
  | x :: xs => x.NoMarkers ∧ NoMarkersL xs
/-- On entries. -/
def NoMarkersE : List (Key × Val) → Prop
  | [] => True
  | (k, v) :: es => NoMarker k.text ∧ v.NoMarkers ∧ NoMarkersE es
end

mutual
/-- The plain data of a node tree; none if the tree is not plain YAML content
(document nodes inside, keys that are not scalars, a key without value). -/
def data : Node → Option Val
  | .mk h cs =>
    match h.kind with
    | .scalar => if cs.isEmpty then some (.scalar h.tag h.value) else none
    | .sequence =>
      match datas cs with
      | some xs => some (.seq h.tag xs)
      | none => none
    | .mapping =>
      match dataPairs cs with
      | some es => some (.map h.tag es)
      | none => none
    | .alias => if cs.isEmpty then some (.alias h.value) else none
    | _ => none
/-- On sequence elements. -/
def datas : List Node → Option (List Val)
  | [] => some []
  | c :: cs =>
    match data c, datas cs with
    | some x, some xs => some (x :: xs)
    | _, _ => none
/-- On the alternating keys and values of a mapping. -/
def dataPairs : List Node → Option (List (Key × Val))
  | [] => some []
  | [_] => none
  | k :: v :: cs =>
    match k.hd.kind, data v, dataPairs cs with
    | .scalar, some x, some es => if k.content.isEmpty then some ((⟨k.hd.tag, k.hd.value⟩, x) :: es) else none
    | _, _, _ => none
end

/-- The value of the first entry whose key has text `t`. -/
def lookup (t : Str) : List (Key × Val) → Option Val
  | [] => none
  | e :: r => if e.1.text = t then some e.2 else lookup t r

end Yot.Spec
