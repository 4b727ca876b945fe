import Verif.Spec.Output
/-
Documents that differ at most in styles (which yot sets anew in all it writes), in where they
are in memory and in the text, and in how an empty list of children is represented.
-/
namespace Yot.Spec

/-- The fields that count. -/
def plainHd (h : Hdr) : Hdr := { h with addr := 0, style := 0, nilc := true, row := 0, col := 0 }

/-- The tree with those fields only. -/
def plainly (n : Node) : Node := mapHdr plainHd n

/-- The same kinds, tags, texts, anchors and comments in the same places. -/
def Alike (x y : Node) : Prop := plainly x = plainly y

/-- The fields that the text shows. -/
def writtenHd (h : Hdr) : Hdr := { h with addr := 0, nilc := true, row := 0, col := 0 }

/-- The tree with those fields only. -/
def written (n : Node) : Node := mapHdr writtenHd n

end Yot.Spec
