import Verif.Spec.Inject
import Verif.Spec.Edit
import Verif.Model.Overlay
import Verif.Spec.Query
import Mathlib.Data.List.Infix
/-
The queries: names, wildcards, indices, slices, unions, keys, filters and recursive descent.
How the query library searches (from its documentation; it is not part of the repository), and
what is selected, told by the route to each node.
-/
namespace Yot.Spec

/-- A part of `[...]` on a list: an index, or a slice `lo:hi:step`. -/
inductive Pick where
  | one (i : Int)
  | slice (lo hi : Option Int) (step : Int)
deriving DecidableEq, Repr

/-- A number that counts from the end if it is negative. -/
def fromEnd (n : Nat) (x : Int) : Int := if x < 0 then x + n else x

/-- Element number `j` of `n` is picked. -/
def Pick.has (n j : Nat) : Pick → Bool
  | .one i => fromEnd n i = j
  | .slice lo hi step =>
    if 0 < step then
      let a := max 0 (fromEnd n (lo.getD 0))
      decide (a ≤ j) && hi.all (fun b => decide ((j : Int) < fromEnd n b)) && decide ((j - a) % step = 0)
    else if step < 0 then
      let a := min (n - 1 : Int) (lo.elim (n - 1 : Int) (fromEnd n))
      decide (j ≤ a) && hi.all (fun b => decide (fromEnd n b < (j : Int))) && decide ((a - j) % (-step) = 0)
    else false

/-- The numbers it picks, in the order of the slice. -/
def Pick.numbers (n : Nat) (p : Pick) : List Nat :=
  let l := (List.range n).filter (p.has n)
  match p with
  | .slice _ _ step => if step < 0 then l.reverse else l
  | .one _ => l

/-- A step of a query: `['k', 'l']`; the same for the keys, `['k', 'l']~`; `.*` or `[*]`; `.*~`;
`[i, j:k]`; a filter `[?(...)]` on the children; a filter on the node itself; `..`, which is
followed by another step (`..k` is `anywhere` and `child k`).  A filter is told the whole
document (for `$`) and the node (for `@`), by their contents. -/
inductive PStep where
  | names (ks : List Str)
  | keysOf (ks : List Str)
  | all
  | allKeys
  | items (l : List Pick)
  | filter (p : Node → Node → Bool)
  | test (p : Node → Node → Bool)
  | anywhere

/-- `.k` or `['k']` -/
abbrev PStep.child (k : Str) : PStep := .names [k]
/-- `.k~` -/
abbrev PStep.key (k : Str) : PStep := .keysOf [k]
/-- `[i]` -/
abbrev PStep.item (i : Int) : PStep := .items [.one i]

mutual
/-- The node and all nodes below it, keys included, top down. -/
def nodesOf : Node → List Node
  | .mk h cs => .mk h cs :: nodesOfs cs
/-- On lists. -/
def nodesOfs : List Node → List Node
  | [] => []
  | c :: cs => nodesOf c ++ nodesOfs cs
end

/-- The values of a mapping, the elements of a sequence. -/
def childValues (n : Node) : List Node :=
  if n.hd.kind = .mapping then (pairs n.content).map (·.2) else if n.hd.kind = .sequence then n.content else []

/-- The first entry with the key. -/
def entryOf (n : Node) (k : Str) : List (Node × Node) := ((entriesOf n).find? (fun e => e.1.hd.value = k)).toList

/-- Where one step leads from a node. -/
def PStep.go (root : Node) : PStep → Node → List Node
  | .names ks, n => ks.flatMap (fun k => (entryOf n k).map (·.2))
  | .keysOf ks, n => ks.flatMap (fun k => (entryOf n k).map (·.1))
  | .all, n => childValues n
  | .allKeys, n => (entriesOf n).map (·.1)
  | .items l, n =>
    if n.hd.kind = .sequence then l.flatMap (fun p => (p.numbers n.content.length).filterMap (n.content[·]?)) else []
  | .filter p, n => (childValues n).filter (fun c => p root.fresh c.fresh)
  | .test p, n => if p root.fresh n.fresh then [n] else []
  | .anywhere, n => nodesOf n

/-- Where a sequence of steps leads. -/
def follows (root : Node) : List PStep → Node → List Node
  | [], n => [n]
  | s :: ss, n => (s.go root n).flatMap (follows root ss)

/-- The search, from a document. -/
def findSteps (ss : List PStep) (doc : Node) : List Node :=
  if doc.hd.kind = .document then
    match doc.content with
    | c :: _ => follows doc ss c
    | [] => []
  else follows doc ss doc

/-- What a child is to its parent: the value of an entry with a key (the first entry with that
key, or a later one), the key of such an entry, or element number `i` of `n`. -/
inductive How where
  | value (k : Str) (first : Bool)
  | key (k : Str) (first : Bool)
  | item (i n : Nat)
deriving DecidableEq, Repr

/-- A step from a node to a child. -/
structure Edge where
  how : How
  node : Node

/-- The children of a mapping; `seen` are the keys before. -/
def entryEdges (seen : List Str) : List Node → List Edge
  | k :: v :: r => ⟨.key k.hd.value (k.hd.value ∉ seen), k⟩ :: ⟨.value k.hd.value (k.hd.value ∉ seen), v⟩ :: entryEdges (k.hd.value :: seen) r
  | _ => []

/-- The elements from number `i` on of a sequence of length `n`. -/
def itemEdges (n : Nat) (i : Nat) : List Node → List Edge
  | [] => []
  | c :: cs => ⟨.item i n, c⟩ :: itemEdges n (i + 1) cs

/-- The children of a node. -/
def edgesOf (t : Node) : List Edge :=
  if t.hd.kind = .mapping then entryEdges [] t.content
  else if t.hd.kind = .sequence then itemEdges t.content.length 0 t.content
  else []

/-- The node `m` is reached from the first node by the route. -/
inductive Route : Node → List Edge → Node → Prop
  | here (t : Node) : Route t [] t
  | down {t m : Node} {e : Edge} {r : List Edge} : e ∈ edgesOf t → Route e.node r m → Route t (e :: r) m

/-- The step (one that goes to children) goes along this edge. -/
def PStep.along (root : Node) : PStep → Edge → Bool
  | .names ks, ⟨.value k true, _⟩ => k ∈ ks
  | .keysOf ks, ⟨.key k true, _⟩ => k ∈ ks
  | .all, ⟨.value _ _, _⟩ => true
  | .all, ⟨.item _ _, _⟩ => true
  | .allKeys, ⟨.key _ _, _⟩ => true
  | .items l, ⟨.item j n, _⟩ => l.any (·.has n j)
  | .filter p, ⟨.value _ _, c⟩ => p root.fresh c.fresh
  | .filter p, ⟨.item _ _, c⟩ => p root.fresh c.fresh
  | _, _ => false

/-- The ends of a route from a node, with the nodes where they begin. -/
def ends (n : Node) : List Edge → List (Node × List Edge)
  | [] => [(n, [])]
  | e :: r => (n, e :: r) :: ends e.node r

/-- What a query selects from a node, told by the route. -/
def selects (root : Node) : List PStep → Node → List Edge → Bool
  | [], _, r => r.isEmpty
  | .anywhere :: ss, n, r => (ends n r).any (fun x => selects root ss x.1 x.2)
  | .test p :: ss, n, r => p root.fresh n.fresh && selects root ss n r
  | s :: ss, _, e :: r => s.along root e && selects root ss e.node r
  | _ :: _, _, [] => false

mutual
/-- The tree without what is selected below its root: selected elements are left out, and
entries with a selected key or value. -/
def cut (sel : List Edge → Bool) : Node → Node
  | .mk h cs =>
    if h.kind = .mapping then .mk h (cutEntries sel [] cs)
    else if h.kind = .sequence then .mk h (cutItems sel cs.length 0 cs)
    else .mk h cs
/-- On the children of a mapping. -/
def cutEntries (sel : List Edge → Bool) (seen : List Str) : List Node → List Node
  | k :: v :: r =>
    if sel [⟨.key k.hd.value (k.hd.value ∉ seen), k⟩] || sel [⟨.value k.hd.value (k.hd.value ∉ seen), v⟩] then cutEntries sel (k.hd.value :: seen) r
    else cut (fun x => sel (⟨.key k.hd.value (k.hd.value ∉ seen), k⟩ :: x)) k ::
      cut (fun x => sel (⟨.value k.hd.value (k.hd.value ∉ seen), v⟩ :: x)) v ::
      cutEntries sel (k.hd.value :: seen) r
  | r => r
/-- On the elements of a sequence. -/
def cutItems (sel : List Edge → Bool) (n i : Nat) : List Node → List Node
  | [] => []
  | c :: cs =>
    if sel [⟨.item i n, c⟩] then cutItems sel n (i + 1) cs
    else cut (fun x => sel (⟨.item i n, c⟩ :: x)) c :: cutItems sel n (i + 1) cs
end

mutual
/-- `new` is `old` with every outermost selected node `n` replaced by some `n'` with `P n n'`,
and otherwise the same, for a root that is not selected. -/
def EditedSel (P : Node → Node → Prop) (sel : List Edge → Bool) : Node → Node → Prop
  | .mk h cs, new =>
    new.hd = h ∧
    (if h.kind = .mapping then EditedEntries P sel [] cs new.content
     else if h.kind = .sequence then EditedItems P sel cs.length 0 cs new.content
     else new.content = cs)
/-- On the children of a mapping. -/
def EditedEntries (P : Node → Node → Prop) (sel : List Edge → Bool) (seen : List Str) : List Node → List Node → Prop
  | k :: v :: r, new => ∃ k' v' r', new = k' :: v' :: r' ∧
    (if sel [⟨.key k.hd.value (k.hd.value ∉ seen), k⟩] then P k k'
     else EditedSel P (fun x => sel (⟨.key k.hd.value (k.hd.value ∉ seen), k⟩ :: x)) k k') ∧
    (if sel [⟨.value k.hd.value (k.hd.value ∉ seen), v⟩] then P v v'
     else EditedSel P (fun x => sel (⟨.value k.hd.value (k.hd.value ∉ seen), v⟩ :: x)) v v') ∧
    EditedEntries P sel (k.hd.value :: seen) r r'
  | r, new => new = r
/-- On the elements of a sequence. -/
def EditedItems (P : Node → Node → Prop) (sel : List Edge → Bool) (n i : Nat) : List Node → List Node → Prop
  | [], new => new = []
  | c :: cs, new => ∃ c' cs', new = c' :: cs' ∧
    (if sel [⟨.item i n, c⟩] then P c c' else EditedSel P (fun x => sel (⟨.item i n, c⟩ :: x)) c c') ∧
    EditedItems P sel n (i + 1) cs cs'
end

/-- The document without what is selected. -/
def cutDoc (sel : List Edge → Bool) (doc : Node) : Node :=
  match doc with
  | .mk h (c :: cs) => if sel [] then .mk h cs else .mk h (cut sel c :: cs)
  | d => d

/-- `new` is the document `old`, edited where selected. -/
def EditedDoc (P : Node → Node → Prop) (sel : List Edge → Bool) (old new : Node) : Prop :=
  new.hd = old.hd ∧
  match old.content with
  | [] => new.content = []
  | c :: cs => ∃ c', new.content = c' :: cs ∧ if sel [] then P c c' else EditedSel P sel c c'

/-- The queries of an overlay are these. -/
def Queries (o : Overlay) (qs : List (List PStep)) : Prop := o.query.map Query.find = qs.map findSteps

/-- Some query selects the route, from the root of the document. -/
def selected (qs : List (List PStep)) (d : Node) (r : List Edge) : Bool :=
  match d.content with
  | c :: _ => qs.any (fun ss => selects d ss c r)
  | [] => false

/-- What an overlay that does not delete makes of one matched node. -/
def actOn (E : Sed) (o : Overlay) (n : Node) : Res Err Node :=
  match o.action with
  | .replace => .ok (replaceNode E n o.value)
  | .combine => combineNode E n o.value
  | _ => mergeNode E n o.value

/-- A document as the decoder makes it, perhaps edited since, in memory: a document node with
at most one root, well formed, without document nodes below. -/
structure Doc (d : Node) : Prop where
  kind : d.hd.kind = .document
  decoded : Decoded d
  zero : 0 ∉ d.addrs
  single : d.content.length ≤ 1
  root : ∀ c ∈ d.content, NoDocs c

/-- Some query selects something in the document. -/
def SomeSelected (qs : List (List PStep)) (d : Node) : Prop :=
  ∃ c ∈ d.content, ∃ r m, Route c r m ∧ selected qs d r = true

/-- No selected node of the document lies inside another. -/
def NoneInside (qs : List (List PStep)) (d : Node) : Prop :=
  ∀ c ∈ d.content, ∀ r r' m m', Route c r m → Route c r' m' → selected qs d r = true → selected qs d r' = true → r <+: r' → r = r'

/-- The query ends on values: its last step that is not a filter on the node itself goes to
values or elements, not to keys, and is not `..`; `top` says so of the beginning. -/
def endsOnValue (top : Bool) : List PStep → Bool
  | [] => top
  | .test _ :: ss => endsOnValue top ss
  | .keysOf _ :: ss => endsOnValue false ss
  | .allKeys :: ss => endsOnValue false ss
  | .anywhere :: ss => endsOnValue false ss
  | _ :: ss => endsOnValue true ss

/-- No element is picked by two of the parts. -/
def PickedOnce (l : List Pick) : Prop := l.Pairwise (fun p q => ∀ n, ∀ j < n, p.has n j = true → q.has n j = false)

/-- The step does not lead to a child twice: no name is repeated, no element picked by two parts. -/
def PStep.Plain : PStep → Prop
  | .names ks => ks.Nodup
  | .keysOf ks => ks.Nodup
  | .items l => PickedOnce l
  | _ => True

/-- The number of `..` in a query. -/
def descents (ss : List PStep) : Nat := (ss.filter (fun | .anywhere => true | _ => false)).length

/-- The query finds no node twice: at most one `..`, and plain steps. -/
def Once (ss : List PStep) : Prop := descents ss ≤ 1 ∧ ∀ s ∈ ss, s.Plain

/-- No node of the document is selected by two of the queries. -/
def Separate (qs : List (List PStep)) (d : Node) : Prop :=
  qs.Pairwise (fun ss ss' => ∀ c ∈ d.content, ∀ r m, Route c r m → selects d ss c r = true → selects d ss' c r = false)

end Yot.Spec
