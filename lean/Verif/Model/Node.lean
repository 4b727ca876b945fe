import Verif.Model.Str
/-
`yaml.Node` of gopkg.in/yaml.v3 as a tree.
-/
namespace Yot

/-- `yaml.Kind` (yaml.v3 yaml.go): `0` for a zero Node, else the five kinds. -/
inductive Kind where
  | zero | document | sequence | mapping | scalar | alias
deriving DecidableEq, Repr, Inhabited

/-- The fields of `yaml.Node` other than `Content`.

* `addr` is the address of the node (what a `*yaml.Node` pointer holds); `0`
  stands for a node allocated during the current overlay, to which no query
  result points.
* `nilc` tells a nil `Content` from an empty one (`Content == nil` iff `nilc`
  and there are no children); Go code here and `cmp.Equal` see the difference.
* `hasAlias` is `Alias != nil`.  Simplification: the target of an alias node is
  not represented (the emitter writes only the anchor name, which is `value`). (the `*yaml.Node` of merge.go:22) -/
structure Hdr where
  addr : Nat := 0
  kind : Kind := .zero
  style : Nat := 0
  tag : Str := []
  value : Str := []
  anchor : Str := []
  hasAlias : Bool := false
  nilc : Bool := true
  head : Str := []
  line : Str := []
  foot : Str := []
  row : Nat := 0
  col : Nat := 0
deriving DecidableEq, Repr, Inhabited

/-- `yaml.Node` (yaml.v3 yaml.go): header fields and `Content`. -/
inductive Node where
  | mk (hd : Hdr) (content : List Node)
deriving Repr, Inhabited

namespace Node

/-- Fields other than `Content`. (merge.go:22-215) -/
def hd : Node → Hdr
  | mk h _ => h

/-- The `Content` slice. (merge.go:22-215) -/
def content : Node → List Node
  | mk _ cs => cs

@[simp] theorem hd_mk (h : Hdr) (cs : List Node) : (mk h cs).hd = h := rfl
@[simp] theorem content_mk (h : Hdr) (cs : List Node) : (mk h cs).content = cs := rfl
@[simp] theorem eta (n : Node) : mk n.hd n.content = n := by cases n; rfl

/-- `n.Kind`. (merge.go:38-55) -/
abbrev kind (n : Node) : Kind := n.hd.kind

/-- `n.Content == nil`. (merge.go:57-67) -/
def contentIsNil (n : Node) : Bool := n.hd.nilc && n.content.isEmpty

/-- Induction principle for the nested inductive type. -/
theorem ind {P : Node → Prop} (h : ∀ hd cs, (∀ c ∈ cs, P c) → P (mk hd cs)) : ∀ n, P n := by
  intro n
  exact Node.rec (motive_1 := P) (motive_2 := fun cs => ∀ c ∈ cs, P c)
    (fun hd cs ih => h hd cs ih) (by simp)
    (fun c cs hc hcs => by
      intro x hx
      rcases List.mem_cons.mp hx with rfl | hx
      · exact hc
      · exact hcs x hx) n

mutual
/-- Structural equality test. (of the model only; cf. documentquery.go:58) -/
def decEq : (a b : Node) → Decidable (a = b)
  | mk h1 c1, mk h2 c2 =>
    match (inferInstance : Decidable (h1 = h2)), decEqs c1 c2 with
    | isTrue e1, isTrue e2 => isTrue (by rw [e1, e2])
    | isFalse n1, _ => isFalse (by intro h; injection h; contradiction)
    | _, isFalse n2 => isFalse (by intro h; injection h; contradiction)
/-- Structural equality test on lists. (documentquery.go:58) -/
def decEqs : (a b : List Node) → Decidable (a = b)
  | [], [] => isTrue rfl
  | [], _ :: _ => isFalse (by simp)
  | _ :: _, [] => isFalse (by simp)
  | x :: xs, y :: ys =>
    match decEq x y, decEqs xs ys with
    | isTrue e1, isTrue e2 => isTrue (by rw [e1, e2])
    | isFalse n1, _ => isFalse (by intro h; injection h; contradiction)
    | _, isFalse n2 => isFalse (by intro h; injection h; contradiction)
end

instance : DecidableEq Node := decEq

mutual
/-- The deep copy made by `reprint.FromTo` (used in merge.go:206, replace.go:16):
same data, freshly allocated nodes. -/
def fresh : Node → Node
  | mk h cs => mk { h with addr := 0 } (freshs cs)
/-- `fresh` on a list. (merge.go:203-212) -/
def freshs : List Node → List Node
  | [] => []
  | c :: cs => fresh c :: freshs cs
end

mutual
/-- Pre-order addresses of a tree, root first. (delete.go:14-56 (comparison of pointers)) -/
def addrs : Node → List Nat
  | mk h cs => h.addr :: addrss cs
/-- Addresses of a list of trees. (delete.go:14-56) -/
def addrss : List Node → List Nat
  | [] => []
  | c :: cs => addrs c ++ addrss cs
end

mutual
/-- Give every node of a tree its own address (pre-order numbering from `k`),
returning the next free number.  Addresses are unobservable except through
pointer equality, so this stands for "the addresses the nodes happen to have". (delete.go:14-56) -/
def labelFrom (k : Nat) : Node → Node × Nat
  | mk h cs =>
    let r := labelsFrom (k + 1) cs
    (mk { h with addr := k } r.1, r.2)
/-- `labelFrom` on a list. (delete.go:14-56) -/
def labelsFrom (k : Nat) : List Node → List Node × Nat
  | [] => ([], k)
  | c :: cs =>
    let r := labelFrom k c
    let rs := labelsFrom r.2 cs
    (r.1 :: rs.1, rs.2)
end

/-- Distinct, non-zero addresses throughout. (delete.go:14-56) -/
def label (n : Node) : Node := (labelFrom 1 n).1

end Node
end Yot
