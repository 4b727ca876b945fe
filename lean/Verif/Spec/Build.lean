import Verif.Model.Format
/-
Constructors for concrete nodes used in the examples beside the theorems.
-/
namespace Yot.Ex

/-- A plain scalar. -/
def sc (v : Str) (tag : Str := c!"!!str") : Node := .mk { kind := .scalar, tag := tag, value := v } []
/-- A sequence. -/
def sq (cs : List Node) : Node :=
  .mk { kind := .sequence, tag := c!"!!seq", nilc := cs.isEmpty } cs
/-- A mapping from its alternating keys and values. -/
def mp (cs : List Node) : Node :=
  .mk { kind := .mapping, tag := c!"!!map", nilc := cs.isEmpty } cs
/-- A document. -/
def dc (c : Node) : Node := .mk { kind := .document, nilc := false } [c]

/-- A sed engine that accepts no command. -/
def noSed : Sed := ⟨fun _ => false, fun _ v => (v, true)⟩
/-- A sed engine that knows the one command `d2` (write the text twice, on lines
of its own). -/
def dupSed : Sed := ⟨fun c => c = c!"d2", fun _ v => ('\n' :: v ++ v ++ ['\n'], true)⟩

/-- The tree of a successful outcome, addresses aside. -/
def tree {ε : Type} : Res ε Node → Option Node
  | .ok n => some n.fresh
  | _ => none

end Yot.Ex
