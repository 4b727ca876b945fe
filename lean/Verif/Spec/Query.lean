import Verif.Model.Overlay
import Verif.Spec.Tree
import Mathlib.Data.List.Forall2
/-
Specification of document queries and of when an overlay qualifies.
-/
namespace Yot.Spec

/-- The node `m` is matched by one of the queries in the document.  (A document
whose root was deleted has no matches.) -/
def Matches (qs : List Query) (doc m : Node) : Prop :=
  ¬ (doc.hd.kind = .document ∧ doc.content = []) ∧ ∃ q ∈ qs, m ∈ q.find doc

mutual
/-- A node as data: style, comments, position and identity left out, and no
difference between the representations of "no children". -/
def plain : Node → Node
  | .mk h cs =>
    .mk { kind := h.kind, tag := h.tag, value := h.value, anchor := h.anchor, hasAlias := h.hasAlias }
      (plains cs)
/-- On lists. -/
def plains : List Node → List Node
  | [] => []
  | c :: cs => plain c :: plains cs
end

mutual
/-- "No children" is represented the same way in both trees, node by node (as
far as the trees have the same shape). -/
def SameNil : Node → Node → Prop
  | .mk h cs, .mk h' cs' =>
    ((h.nilc = true ∧ cs = []) ↔ (h'.nilc = true ∧ cs' = [])) ∧ SameNils cs cs'
/-- On lists. -/
def SameNils : List Node → List Node → Prop
  | c :: cs, c' :: cs' => SameNil c c' ∧ SameNils cs cs'
  | _, _ => True
end

mutual
/-- As the YAML parser makes it: `Content` is nil iff there are no children. -/
def Parsed : Node → Prop
  | .mk h cs => (h.nilc = true ↔ cs = []) ∧ Parseds cs
/-- On lists. -/
def Parseds : List Node → Prop
  | [] => True
  | c :: cs => Parsed c ∧ Parseds cs
end

/-- The value field was left out. -/
def Absent (v : Node) : Prop := v.fresh = .mk {} []

/-- One condition of a document query holds: it matches something, and if it has
a value every match equals it as data. -/
def Holds (c : Condition) (doc : Node) : Prop :=
  (∃ m, Matches c.query doc m) ∧
  (¬ Absent c.value → ∀ m, Matches c.query doc m → plain m = plain c.value ∧ SameNil m c.value)

/-- The document query of an overlay holds: there is none, or some group has all
its conditions satisfied. -/
def Qualifies (o : Overlay) (doc : Node) : Prop :=
  o.documentQuery = [] ∨ ∃ g ∈ o.documentQuery, ∀ c ∈ g, Holds c doc

/-- `w` spells `word` (lower case) in some mixture of letter cases. -/
def AnyCase (w word : Str) : Prop :=
  List.Forall₂ (fun c l => c = l ∨ c = l.toUpper) w word

/-- The same with all of Unicode: the letters i and k have another capital,
U+0130 and U+212A. -/
def AnyCaseU (w word : Str) : Prop :=
  List.Forall₂ (fun c l => c = l ∨ c = l.toUpper ∨ (c = '\u0130' ∧ l = 'i') ∨ (c = '\u212a' ∧ l = 'k')) w word

/-- The onMissing action in effect: the overlay's own unless it says nothing. -/
def Effective (configured : Str) (m : OnMissing) (a : OnMissingAction) : Prop :=
  (m.action ≠ .default ∧ a = m.action) ∨
  (m.action = .default ∧ AnyCase configured c!"inject" ∧ a = .inject) ∨
  (m.action = .default ∧ ¬ AnyCase configured c!"inject" ∧ a = .ignore)

/-- Inject is in effect. -/
def Injects (configured : Str) (m : OnMissing) : Prop := Effective configured m .inject

end Yot.Spec
