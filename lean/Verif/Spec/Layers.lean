import Verif.Spec.Output
/-
Values laid over one another.
-/
namespace Yot.Spec

/-- The value is a mapping. -/
def Val.IsMap : Val → Prop
  | .map _ _ => True
  | _ => False

/-- The value is a sequence. -/
def Val.IsSeq : Val → Prop
  | .seq _ _ => True
  | _ => False

/-- The value asks for nothing: an empty mapping. -/
def Val.AsksNothing : Val → Prop
  | .map _ [] => True
  | _ => False

/-- What the value holds under a key; nothing if it is no mapping. -/
def Val.at (k : Str) : Val → Option Val
  | .map _ es => lookup k es
  | _ => none

mutual
/-- The second value does not come between the other two: nowhere do the first and the third
both have a mapping, or both have a sequence, where the second has something else. -/
def Between (a b : Val) : Val → Prop
  | .alias _ => True
  | .scalar _ _ => True
  | .seq _ _ => a.IsSeq → b.IsSeq ∨ b.AsksNothing
  | .map _ es => BetweenE a b es
/-- The same for the entries of the third. -/
def BetweenE (a b : Val) : List (Key × Val) → Prop
  | [] => True
  | (k, v) :: es => (a.IsMap → b.IsMap) ∧ (∀ x y, a.at k.text = some x → b.at k.text = some y → Between x y v) ∧ BetweenE a b es
end

/-- Only the data of two documents count: their contents are the same data. -/
def SameData (d d' : Node) : Prop := d.hd.kind = .document ∧ d'.hd.kind = .document ∧ d.content.map data = d'.content.map data

end Yot.Spec
