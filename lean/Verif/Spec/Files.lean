import Verif.Model.File
/-
Specification vocabulary for lists of file entries.
-/
namespace Yot.Spec

/-- The list without repetitions, each element at its first position. -/
def firsts : List Str → List Str
  | [] => []
  | x :: xs => x :: (firsts xs).filter (· ≠ x)

/-- The last non-empty text, or the empty one. -/
def lastGiven (xs : List Str) : Str := ((xs.filter (· ≠ [])).getLast?).getD []

/-- The entries for one path. -/
def entriesFor {O D : Type} (p : Str) (ys : List (Entry O D)) : List (Entry O D) := ys.filter (fun y => y.path = p)

/-- The documents of an input.  For a path listed in the instructions: what the first
entry for it has under `nodes` (an undocumented key, so normally nothing), then what the
file holds.  For another: what the file holds when the command line is looked at. -/
def documentsOf {O D : Type} (read1 read2 : Str → Option (List Node)) (ys : List (Entry O D)) (p : Str) : List Node :=
  match (entriesFor p ys).head? with
  | some e => e.nodes ++ (read1 p).getD []
  | none => (read2 p).getD []

/-- What ends up at position `i` of the spare room that the files share: the own overlay
number `i` of the last file that fits in and has so many. -/
def lastWriter {α : Type} (room : Nat) (owns : List (List α)) (i : Nat) : Option α :=
  (owns.filter (fun xs => decide (xs.length ≤ room ∧ i < xs.length))).getLast?.bind (·[i]?)

/-- What a file with the overlays `own` gets instead of them, if the files have the own
overlays `owns` and there is spare room for `room` overlays. -/
def received {α : Type} (room : Nat) (owns : List (List α)) (own : List α) : List α :=
  if own.length ≤ room then (List.range own.length).filterMap (lastWriter room owns) else own

/-- The two lists agree as far as both go. -/
def Agree {α : Type} (xs ys : List α) : Prop := ∀ (j : Nat) (x y : α), xs[j]? = some x → ys[j]? = some y → x = y

end Yot.Spec
