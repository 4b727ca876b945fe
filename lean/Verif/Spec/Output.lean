import Verif.Model.Actions
import Verif.Spec.Merge
import Verif.Spec.Tree
/-
Specification vocabulary for rendering and values.
-/
namespace Yot.Spec

mutual
/-- Change the fields of every node. -/
def mapHdr (f : Hdr → Hdr) : Node → Node
  | .mk h cs => .mk (f h) (mapHdrs f cs)
/-- On lists. -/
def mapHdrs (f : Hdr → Hdr) : List Node → List Node
  | [] => []
  | c :: cs => mapHdr f c :: mapHdrs f cs
end

/-- The tree without any comments. -/
def withoutComments (n : Node) : Node := mapHdr (fun h => { h with head := [], line := [], foot := [] }) n

/-- The tree with all styles forgotten. -/
def withoutStyles (n : Node) : Node := mapHdr (fun h => { h with style := 0 }) n

/-- The node has no comment. -/
def Uncommented (h : Hdr) : Prop := h.head = [] ∧ h.line = [] ∧ h.foot = []

/-- The bits of a set of styles. -/
def styleBits (ss : List StyleName) : Nat := ss.foldl (fun b s => b ||| s.bit) 0

/-- The names separated by commas, in brackets. -/
def inBrackets : List Str → Str
  | [] => c!"[]"
  | n :: ns => '[' :: (n ++ ns.flatMap (fun m => ',' :: m) ++ [']'])

/-- What a value says about a path of keys: nothing, that there is something other
than a mapping on the way, or the value there. -/
inductive Says where
  | nothing
  | blocked
  | value (v : Val)

/-- Follow a path of keys. -/
def follow : List Str → Val → Says
  | [], v => .value v
  | k :: ks, .map _ es =>
    match lookup k es with
    | none => .nothing
    | some x => follow ks x
  | _ :: _, _ => .blocked

/-- The value at a path of keys, if any. -/
def valueAt (ks : List Str) (v : Val) : Option Val :=
  match follow ks v with
  | .value x => some x
  | _ => none

mutual
/-- No mapping has a key twice. -/
def Val.KeysDistinct : Val → Prop
  | .map _ es => (es.map (fun e => e.1.text)).Nodup ∧ KeysDistinctE es
  | .seq _ xs => KeysDistinctL xs
  | _ => True
/-- On lists. -/
def KeysDistinctL : List Val → Prop
  | [] => True
  | x :: xs => x.KeysDistinct ∧ KeysDistinctL xs
/-- On entries. -/
def KeysDistinctE : List (Key × Val) → Prop
  | [] => True
  | (_, v) :: es => v.KeysDistinct ∧ KeysDistinctE es
end

/-- What is written for documents none of which is empty. -/
def textsFrom (emit : Bool → Node → Res Err Str) : Bool → List Node → Res Err Str
  | _, [] => .ok []
  | first, n :: ns => emit first n >>= fun t => textsFrom emit false ns >>= fun r => .ok (t ++ r)

/-- Texts that differ at most in upper and lower case. -/
def SameLetters (s t : Str) : Prop := toLowerStr s = toLowerStr t

/-- The names documented for the styles (docs of `--output-style`). -/
def styleNames : StyleName → List Str
  | .normal => [c!"normal", c!"n"]
  | .tagged => [c!"tagged", c!"tag", c!"t"]
  | .doubleQuoted => [c!"doubleQuoted", c!"doubleQuote", c!"double", c!"dq"]
  | .singleQuoted => [c!"singleQuoted", c!"singleQuote", c!"single", c!"sq"]
  | .literal => [c!"literal", c!"l"]
  | .folded => [c!"folded", c!"fold", c!"fo"]
  | .flow => [c!"flow", c!"fl"]

/-- The name, in any letter case, is one of the style's. -/
def Names (n : Str) (s : StyleName) : Prop := ∃ a ∈ styleNames s, SameLetters n a

/-- A values file: a document whose content is the data `v`. -/
def HoldsValues (d : Node) (v : Val) : Prop :=
  d.kind = .document ∧ ∃ n, d.content = [n] ∧ data n = some v

end Yot.Spec
