import Verif.Spec.Path
import Verif.Spec.Tree
/-
Specification of child-name queries and of injecting a value at a path of names.
-/
namespace Yot.Spec

/-- The entries of a node: none unless it is a mapping. -/
def entriesOf (n : Node) : List (Node × Node) := if n.hd.kind = .mapping then pairs n.content else []

/-- The value of the first entry with key text `k`. -/
def firstAt (k : Str) : List (Node × Node) → Option Node
  | [] => none
  | e :: es => if e.1.hd.value = k then some e.2 else firstAt k es

/-- What the query language means by a path of child names: the node reached by
going from mapping to mapping. -/
def walk : List Str → Node → List Node
  | [], n => [n]
  | k :: ks, n =>
    match firstAt k (entriesOf n) with
    | some v => walk ks v
    | none => []

/-- The same from a document. -/
def findNames (ks : List Str) (doc : Node) : List Node :=
  if doc.hd.kind = .document then
    match doc.content with
    | c :: _ => walk ks c
    | [] => []
  else walk ks doc

/-- The node `m` holds the value `v`: same kind, tag, text, style, anchor, and
copies of its children. -/
def HoldsValue (v m : Node) : Prop :=
  m.hd.kind = v.hd.kind ∧ m.hd.tag = v.hd.tag ∧ m.hd.value = v.hd.value ∧ m.hd.style = v.hd.style ∧
  m.hd.anchor = v.hd.anchor ∧ m.content = v.content.map copyOf

/-- Where there is nothing yet. -/
def nothing : Node := .mk { kind := .scalar } []

/-- `new` is `old` with the value `v` put at the path: at each step the entry for
the next name is the only one that differs; if there was none it is added at the
end; what was not a mapping becomes one with that entry alone.  A mapping on the
path keeps its own fields. -/
def Injected (v : Node) : List Str → Node → Node → Prop
  | [], _, new => HoldsValue v new
  | k :: ks, old, new =>
    new.hd.kind = .mapping ∧ new.content.length % 2 = 0 ∧
    (old.hd.kind = .mapping → ∃ b, new.hd = { old.hd with nilc := b }) ∧
    ∃ before kn x after, pairs new.content = before ++ (kn, x) :: after ∧
      kn.hd.value = k ∧ (∀ e ∈ before, e.1.hd.value ≠ k) ∧
      ((∃ x0, entriesOf old = before ++ (kn, x0) :: after ∧ Injected v ks x0 x) ∨
       (entriesOf old = before ∧ after = [] ∧ Injected v ks nothing x))

end Yot.Spec
