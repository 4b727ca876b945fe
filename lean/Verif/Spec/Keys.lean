import Verif.Spec.JsonPath
import Verif.Spec.Text
/-
Renaming a key of a mapping.
-/
namespace Yot.Spec

/-- `t'` is `t` with another node as the key of one entry: in the mapping that the names lead to,
the (first) entry with the key text `k` has a key `key'` with `P key key'` instead; its value, all
other entries and their order are the same, and so is everything else. -/
def KeyChanged (P : Node → Node → Prop) (k : Str) : List Str → Node → Node → Prop
  | [], t, t' => t.hd.kind = .mapping ∧ t'.hd = t.hd ∧ ∃ before key v after key',
      t.content = before ++ key :: v :: after ∧ before.length % 2 = 0 ∧ key.hd.value = k ∧ k ∉ keys before ∧
      t'.content = before ++ key' :: v :: after ∧ P key key'
  | c :: cs, t, t' => t.hd.kind = .mapping ∧ t'.hd = t.hd ∧ ∃ before key v after v',
      t.content = before ++ key :: v :: after ∧ before.length % 2 = 0 ∧ key.hd.value = c ∧ c ∉ keys before ∧
      t'.content = before ++ key :: v' :: after ∧ KeyChanged P k cs v v'

/-- The document `d'` is `d` with another node as the key `k` of the mapping at the path. -/
def DocKeyChanged (P : Node → Node → Prop) (k : Str) (path : List Str) (d d' : Node) : Prop :=
  d'.hd = d.hd ∧ ∃ c c' cs, d.content = c :: cs ∧ d'.content = c' :: cs ∧ KeyChanged P k path c c'

/-- The document has a mapping with the key `k` at the path. -/
def HasKey (d : Node) (path : List Str) (k : Str) : Prop :=
  ∃ m ∈ findNames path d, m.hd.kind = .mapping ∧ k ∈ keys m.content

/-- The query `path.k~`. -/
def keySteps (path : List Str) (k : Str) : List PStep := path.map .child ++ [.key k]

end Yot.Spec
