import Verif.Model.Heap
/-
How a tree lies in memory.
-/
namespace Yot.Spec

mutual
/-- The tree lies in memory: at the address of each of its nodes there is a cell with
the node's fields and the addresses of its children. -/
def Stored (h : Heap) : Node → Prop
  | .mk hd cs => h.get hd.addr = ⟨hd, cs.map (fun c => c.hd.addr)⟩ ∧ Storeds h cs
/-- On lists. -/
def Storeds (h : Heap) : List Node → Prop
  | [] => True
  | c :: cs => Stored h c ∧ Storeds h cs
end

/-- Trees that lie in allocated memory, every node having its own cell (so that no
two of the trees, or parts of one, share anything). -/
structure Forest (h : Heap) (ts : List Node) : Prop where
  stored : Storeds h ts
  distinct : (Node.addrss ts).Nodup
  live : ∀ a ∈ Node.addrss ts, 0 < a ∧ a < h.next

mutual
/-- The tree with the addresses of nodes allocated from `base` on forgotten (made
`0`, as `Model/Actions` does for new nodes). -/
def forget (base : Nat) : Node → Node
  | .mk hd cs => .mk { hd with addr := if hd.addr < base then hd.addr else 0 } (forgets base cs)
/-- On lists. -/
def forgets (base : Nat) : List Node → List Node
  | [] => []
  | c :: cs => forget base c :: forgets base cs
end

/-- Memory is only added to, and the allocated cells outside `A` are untouched. -/
def Untouched (h h' : Heap) (A : List Nat) : Prop :=
  h.next ≤ h'.next ∧ ∀ a, a < h.next → a ∉ A → h'.get a = h.get a

/-- The document `o` and the overlay value `n` are trees in memory without a common
cell. -/
structure Apart (h : Heap) (o n : Node) : Prop where
  doc : Forest h [o]
  val : Forest h [n]
  apart : ∀ a ∈ o.addrs, a ∉ n.addrs

/-- The matches lie in the document. -/
def InDoc (t : Node) (ms : List Node) : Prop := ∀ m ∈ ms, m.hd.addr ∈ t.addrs

/-- The node at `p` is reached from the root of the tree without passing a node of
`ms`. -/
inductive Outermost (ms : List Nat) (p : Nat) : Node → Prop
  | here {hd : Hdr} {cs : List Node} : hd.addr = p → Outermost ms p (.mk hd cs)
  | inside {hd : Hdr} {cs : List Node} {c : Node} : hd.addr ∉ ms → c ∈ cs → Outermost ms p c → Outermost ms p (.mk hd cs)

/-- No match lies inside another. -/
def Unnested (t : Node) (ms : List Nat) : Prop := ∀ p ∈ ms, Outermost ms p t

/-- A call that, given enough stack, ends in the given way with the given memory. -/
def Ends {α : Type} (x : Nat → HM α) (h : Heap) (r : Flow α) (h' : Heap) : Prop :=
  ∃ K, ∀ fuel, K ≤ fuel → x fuel h = (r, h')

/-- The call does to the tree `t` in memory what `r` says of trees: it ends as `r`
ends, and if `r` is a tree then that tree is what is found in place of `t`, made of
cells of `t` and new ones.  Nothing else in memory changes, however it ends. -/
def Does (x : Nat → HM Unit) (h : Heap) (t : Node) : Res Err Node → Prop
  | .ok b => ∃ h' t', Ends x h (.ok ()) h' ∧ Untouched h h' t.addrs ∧ Forest h' [t'] ∧ t'.hd.addr = t.hd.addr ∧
      (∀ a ∈ t'.addrs, a ∈ t.addrs ∨ h.next ≤ a) ∧ forget h.next t' = b
  | .err e => ∃ h', Ends x h (.err e) h' ∧ Untouched h h' t.addrs
  | .panic => ∃ h', Ends x h .panic h' ∧ Untouched h h' t.addrs

end Yot.Spec
