import Verif.Spec.Tree
/-
Specification of edits at matches inside a document.  A match is named by the
address of the matched node.
-/
namespace Yot.Spec

mutual
/-- `new` is `old` with every outermost matched node `n` replaced by some node
`n'` with `P n n'`; every other node that is not below a match keeps its own
fields, and its children keep their number and order. -/
def EditedAt (isMatch : Nat → Prop) (P : Node → Node → Prop) : Node → Node → Prop
  | .mk h cs, new =>
    (isMatch h.addr ∧ P (.mk h cs) new) ∨
    (¬ isMatch h.addr ∧ new.hd = h ∧ EditedAts isMatch P cs new.content)
/-- On children. -/
def EditedAts (isMatch : Nat → Prop) (P : Node → Node → Prop) : List Node → List Node → Prop
  | [], new => new = []
  | c :: cs, new => ∃ c' cs', new = c' :: cs' ∧ EditedAt isMatch P c c' ∧ EditedAts isMatch P cs cs'
end

/-- `new` differs from `old` only at and below matched nodes. -/
def OnlyInside (isMatch : Nat → Prop) (old new : Node) : Prop :=
  EditedAt isMatch (fun _ _ => True) old new

/-- The node `n'` is the overlay value `v` installed in the place of `n`: same
kind, tag, text, style, anchor as `v`, and copies of its children; it stays at
the same address.  Comments are not constrained here. -/
def Installed (v n n' : Node) : Prop :=
  n'.hd.addr = n.hd.addr ∧ n'.hd.kind = v.hd.kind ∧ n'.hd.tag = v.hd.tag ∧
  n'.hd.value = v.hd.value ∧ n'.hd.style = v.hd.style ∧ n'.hd.anchor = v.hd.anchor ∧
  n'.content = v.content.map copyOf

/-- Only the text and the comments of a childless scalar differ. -/
def TextOnly (n n' : Node) : Prop :=
  n.hd.kind = .scalar ∧ n'.content = n.content ∧
  ∃ value head line foot, n'.hd = { n.hd with value := value, head := head, line := line, foot := foot }

mutual
/-- The document without the matched nodes: a matched element of a sequence (or
root of a document) is left out; an entry of a mapping is left out if its key or
its value is matched. -/
def prune (isMatch : Nat → Bool) : Node → Node
  | .mk h cs =>
    if h.kind = .sequence ∨ h.kind = .document then .mk h (pruneItems isMatch cs)
    else .mk h (pruneEntries isMatch cs)
/-- Leave out matched elements. -/
def pruneItems (isMatch : Nat → Bool) : List Node → List Node
  | [] => []
  | c :: cs =>
    if isMatch c.hd.addr then pruneItems isMatch cs
    else prune isMatch c :: pruneItems isMatch cs
/-- Leave out entries with a matched key or value. -/
def pruneEntries (isMatch : Nat → Bool) : List Node → List Node
  | k :: v :: r =>
    if isMatch k.hd.addr || isMatch v.hd.addr then pruneEntries isMatch r
    else prune isMatch k :: prune isMatch v :: pruneEntries isMatch r
  | r => r
end

mutual
/-- A nil `Content` has no elements. -/
def NilOk : Node → Prop
  | .mk h cs => (h.nilc = true → cs = []) ∧ NilOks cs
/-- On lists. -/
def NilOks : List Node → Prop
  | [] => True
  | c :: cs => NilOk c ∧ NilOks cs
end

/-- A document as the decoder makes it: children fit kinds, no nil slice has
elements, and every node is its own object. -/
structure Decoded (n : Node) : Prop where
  wf : WellFormed n
  nil : NilOk n
  distinct : n.addrs.Nodup

end Yot.Spec
