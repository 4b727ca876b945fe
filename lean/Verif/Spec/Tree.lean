import Verif.Model.Node
import Verif.Spec.Text
/-
Small specification vocabulary on trees.
-/
namespace Yot.Spec

mutual
/-- Every node of the tree satisfies `p` on its own fields. -/
def AllNodes (p : Hdr → Prop) : Node → Prop
  | .mk h cs => p h ∧ AllNodess p cs
/-- Every node of each tree satisfies `p`. -/
def AllNodess (p : Hdr → Prop) : List Node → Prop
  | [] => True
  | c :: cs => AllNodes p c ∧ AllNodess p cs
end

mutual
/-- The fields of all nodes of a tree. -/
def headers : Node → List Hdr
  | .mk h cs => h :: headerss cs
/-- On lists. -/
def headerss : List Node → List Hdr
  | [] => []
  | c :: cs => headers c ++ headerss cs
end

/-- `p` holds for the text and the three comments of a node. -/
def OnStrings (p : Str → Prop) (h : Hdr) : Prop :=
  p h.value ∧ p h.head ∧ p h.line ∧ p h.foot

mutual
/-- Rewrite the text and the comments of every node; the copy is newly allocated. -/
def mapStrings (f : Str → Str) : Node → Node
  | .mk h cs =>
    .mk { h with addr := 0, value := f h.value, head := f h.head, line := f h.line, foot := f h.foot }
      (mapStringss f cs)
/-- `mapStrings` on a list. -/
def mapStringss (f : Str → Str) : List Node → List Node
  | [] => []
  | c :: cs => mapStrings f c :: mapStringss f cs
end

/-- A copy: same fields, newly allocated nodes. -/
def copyOf (n : Node) : Node := mapStrings id n

/-- The entries of a mapping's children (alternating keys and values). -/
def pairs : List Node → List (Node × Node)
  | k :: v :: r => (k, v) :: pairs r
  | _ => []

/-- The key texts of a mapping's children. -/
def keys (cs : List Node) : List Str := (pairs cs).map (fun e => e.1.hd.value)

/-- A node's children fit its kind: keys and values alternate in a mapping; nodes
other than mappings, sequences and documents have no children. -/
def Shaped (kind : Kind) (count : Nat) : Prop :=
  match kind with
  | .mapping => count % 2 = 0
  | .sequence => True
  | .document => True
  | _ => count = 0

mutual
/-- What the YAML decoder produces: every node's children fit its kind. -/
def WellFormed : Node → Prop
  | .mk h cs => Shaped h.kind cs.length ∧ WellFormeds cs
/-- On lists. -/
def WellFormeds : List Node → Prop
  | [] => True
  | c :: cs => WellFormed c ∧ WellFormeds cs
end

mutual
/-- Only scalars and mappings without repeated keys. -/
def ScalarsAndMaps : Node → Prop
  | .mk h cs => h.kind = .scalar ∨ (h.kind = .mapping ∧ (keys cs).Nodup ∧ ScalarsAndMapsE cs)
/-- On alternating keys and values. -/
def ScalarsAndMapsE : List Node → Prop
  | [] => True
  | [_] => False
  | _ :: v :: r => ScalarsAndMaps v ∧ ScalarsAndMapsE r
end

/-- No node of the tree is a document node (true of any value inside a YAML
file). -/
def NoDocs (n : Node) : Prop := AllNodes (fun h => h.kind ≠ .document) n

/-- The children were not all cut away: there are some, or there never were any. -/
def NotEmptied (n : Node) : Prop := n.contentIsNil = true ∨ n.content ≠ []

end Yot.Spec
