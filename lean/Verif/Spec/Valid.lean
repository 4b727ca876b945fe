import Verif.Spec.Tree
import Verif.Model.Overlay
/-
What a document must be like to be valid YAML, beyond what its text is like.
-/
namespace Yot.Spec

/-- The standard tags of scalars. -/
def scalarTags : List Str :=
  [c!"!!str", c!"!!int", c!"!!float", c!"!!bool", c!"!!null", c!"!!timestamp", c!"!!binary", c!"!!merge"]

/-- The tag is not the standard tag of another kind of node. -/
def TagFits (k : Kind) (t : Str) : Prop :=
  match k with
  | .mapping => t ∉ scalarTags ∧ t ≠ c!"!!seq"
  | .sequence => t ∉ scalarTags ∧ t ≠ c!"!!map"
  | .scalar => t ≠ c!"!!map" ∧ t ≠ c!"!!seq"
  | _ => True

/-- A node inside a document is a mapping, a sequence, a scalar or an alias, with a tag
that fits. -/
def ValidHdr (h : Hdr) : Prop :=
  (h.kind = .mapping ∨ h.kind = .sequence ∨ h.kind = .scalar ∨ h.kind = .alias) ∧ TagFits h.kind h.tag

mutual
/-- The node and all below it are valid: the children fit the kind, and no mapping has two
entries with the same key. -/
def ValidNode : Node → Prop
  | .mk h cs => ValidHdr h ∧ Shaped h.kind cs.length ∧ (h.kind = .mapping → (keys cs).Nodup) ∧ ValidNodes cs
/-- On lists. -/
def ValidNodes : List Node → Prop
  | [] => True
  | c :: cs => ValidNode c ∧ ValidNodes cs
end

/-- A document is a valid node, or empty (and then it is not written). -/
def ValidDocument (d : Node) : Prop :=
  d.hd.kind = .document ∧ d.content.length ≤ 1 ∧ ∀ c ∈ d.content, ValidNode c

mutual
/-- No key of a mapping in the tree contains a format marker. -/
def KeysPlain : Node → Prop
  | .mk h cs => (h.kind = .mapping → ∀ k ∈ keys cs, NoMarker k) ∧ KeysPlains cs
/-- On lists. -/
def KeysPlains : List Node → Prop
  | [] => True
  | c :: cs => KeysPlain c ∧ KeysPlains cs
end

mutual
/-- The keys of the mappings in the tree. -/
def keyNodes : Node → List Node
  | .mk h cs => (if h.kind = .mapping then (pairs cs).map (·.1) else []) ++ keyNodess cs
/-- On lists. -/
def keyNodess : List Node → List Node
  | [] => []
  | c :: cs => keyNodes c ++ keyNodess cs
end

mutual
/-- The nodes below the root that are no keys: the values of entries, the elements of
sequences, what is in a document. -/
def valueNodes : Node → List Node
  | .mk h cs => (if h.kind = .mapping then (pairs cs).map (·.2) else cs) ++ valueNodess cs
/-- On lists. -/
def valueNodess : List Node → List Node
  | [] => []
  | c :: cs => valueNodes c ++ valueNodess cs
end

/-- The query finds values in documents, not keys and not the document itself. -/
def FindsValues (q : Query) : Prop := ∀ d, ValidDocument d → ∀ m ∈ q.find d.label, m ∈ valueNodes d.label

end Yot.Spec
