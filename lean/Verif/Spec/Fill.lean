import Verif.Spec.Merge
import Verif.Spec.Tree
/-
Specification: merging a value whose texts are templates, as data.
-/
namespace Yot.Spec

/-- The text of a value: that of a scalar; a mapping or sequence has none. -/
def Val.text : Val → Str
  | .scalar _ s => s
  | .alias name => name
  | _ => []

/-- A template filled in with a value (`%v`) and a key (`%k`). -/
def fill (sed : Str → Str → Str) (template value key : Str) : Str :=
  meaning (originals value key [] [] []) sed (parse template)

mutual
/-- A value put where nothing was: every marker stands for nothing. -/
def strips (sed : Str → Str → Str) : Val → Val
  | .alias name => .alias name
  | .scalar t s => .scalar t (fill sed s [] [])
  | .seq t xs => .seq t (stripsL sed xs)
  | .map t es => .map t (stripsE sed es)
/-- On lists. -/
def stripsL (sed : Str → Str → Str) : List Val → List Val
  | [] => []
  | x :: xs => strips sed x :: stripsL sed xs
/-- On entries. -/
def stripsE (sed : Str → Str → Str) : List (Key × Val) → List (Key × Val)
  | [] => []
  | (k, v) :: es => (⟨k.tag, fill sed k.text [] []⟩, strips sed v) :: stripsE sed es
end

mutual
/-- Deep merge of the second value, whose texts are templates, into the first, which is the value of
the entry with the key text `key`:
* a scalar replaces what is there by a scalar of its own type, `%v` standing for the text that was
  there and `%k` for the key;
* a sequence is appended to a sequence and replaces anything else;
* the entries of a mapping are put into the target one by one. -/
def fillMerge (sed : Str → Str → Str) (key : Str) (a : Val) : Val → Val
  | .alias name => .alias name
  | .scalar t s => .scalar t (fill sed s a.text key)
  | .seq _ ys =>
    match a with
    | .seq t xs => .seq t (xs ++ stripsL sed ys)
    | _ => .seq c!"!!seq" (stripsL sed ys)
  | .map _ es => fillAll sed a es
/-- Put entries into a mapping in order.  An entry whose key is no template is merged into the entry
with that key, or added at the end.  An entry whose key is a template is merged into every entry
there is, and every key becomes the template filled in with it and with the text of its value; if
there is no entry at all, it is added. -/
def fillAll (sed : Str → Str → Str) (a : Val) : List (Key × Val) → Val
  | [] => a
  | (k, v) :: es =>
    fillAll sed (.map (asMap a).1
      (if NoMarker k.text then setKey k (strips sed v) (fun old => fillMerge sed k.text old v) (asMap a).2
       else if (asMap a).2 = [] then [(⟨k.tag, fill sed k.text [] []⟩, strips sed v)]
       else (asMap a).2.map fun e => (⟨e.1.tag, fill sed k.text e.2.text e.1.text⟩, fillMerge sed e.1.text e.2 v))) es
end

/-- A template without ambiguities: its markers are `%v` and `%k`, it has no other `%`, and its
commands bring none in. -/
def Tame (sed : Str → Str → Str) (s : Str) : Prop := ∀ p ∈ parse s, match p with
  | .text c => c ≠ '%'
  | .marker l => l = 'v' ∨ l = 'k'
  | .command l cmd => (l = 'v' ∨ l = 'k') ∧ (cmd ≠ [] → ∀ t, '%' ∉ t → '%' ∉ sed cmd t)

/-- The first piece may end in a `%`: it is a marker (which stands for any text) or a `%` itself. -/
def MayEndPercent : Piece → Prop
  | .text c => c = '%'
  | _ => True

/-- Another kind of template without ambiguities: its markers are `%v` and `%k`; after a marker, and
after a `%` that is no marker's, comes the end or a character that is neither a marker letter nor a
marker's `%`; its commands bring no markers in. -/
def Spaced (sed : Str → Str → Str) (s : Str) : Prop :=
  (∀ p ∈ parse s, match p with
    | .text _ => True
    | .marker l => l = 'v' ∨ l = 'k'
    | .command l cmd => (l = 'v' ∨ l = 'k') ∧ (cmd ≠ [] → ∀ t, NoMarker t → NoMarker (sed cmd t))) ∧
  ∀ a p q b, parse s = a ++ p :: q :: b → MayEndPercent p → ∃ c, q = .text c ∧ c ∉ letters

/-- A node of an overlay's value all of whose texts are such templates: a scalar, or a mapping or
sequence (which has no text). -/
def Templates (T : Str → Prop) (h : Hdr) : Prop :=
  (h.kind = .scalar ∧ T h.value) ∨ ((h.kind = .mapping ∨ h.kind = .sequence) ∧ h.value = [])

/-- A node of a document whose text is such; mappings and sequences have no text. -/
def Texts (G : Str → Prop) (h : Hdr) : Prop := G h.value ∧ (h.kind = .mapping ∨ h.kind = .sequence → h.value = [])

/-- A node of an overlay's value all of whose templates are tame. -/
def TameHdr (sed : Str → Str → Str) : Hdr → Prop := Templates (Tame sed)

/-- A node of a document without `%` in its text. -/
def Percentless : Hdr → Prop := Texts (fun s => '%' ∉ s)

end Yot.Spec
