import Verif.Spec.FromFile
import Verif.Spec.Tree
import Verif.Model.Builder
/-
Where texts and comments come from.
-/
namespace Yot.Spec

/-- The comments of a node. -/
def commentsAt (h : Hdr) : List Str := [h.head, h.line, h.foot].filter (fun c => c ≠ [])

/-- All comments in a tree. -/
def commentsIn (n : Node) : List Str := (headers n).flatMap commentsAt

/-- The comments in a document, except those of the document node itself (which stands for
the start and the end of the file, see C41). -/
def commentsBelow (doc : Node) : List Str := (headerss doc.content).flatMap commentsAt

/-- The texts (of keys, scalars, names of aliases) in a tree. -/
def textsIn (n : Node) : List Str := ((headers n).map Hdr.value).filter (fun c => c ≠ [])

/-- The texts in a document. -/
def textsBelow (doc : Node) : List Str := ((headerss doc.content).map Hdr.value).filter (fun c => c ≠ [])

/-- `c` is the text `t`, possibly with its markers filled in. -/
inductive FilledFrom (E : Sed) (t : Str) : Str → Prop
  | itself : FilledFrom E t t
  | filled (s : Str) (x : Vals) : FilledFrom E t s → FilledFrom E t (format E s x)

/-- The paths that an overlay may create are those of its queries and of `injectPath`. -/
def createdPaths (o : DOverlay) : List Query := o.base.query ++ o.base.onMissing.injectPath.getD []

/-- `c` is made of `a` and `b` by the action combine: one after the other, the sum, or the conjunction. -/
def CombinedOf (a b c : Str) : Prop :=
  c = a ++ b ∨
  (∃ x y, atoi a = some x ∧ atoi b = some y ∧ c = itoa (wrap64 (x + y))) ∨
  (∃ x y, parseBool a = some x ∧ parseBool b = some y ∧ c = formatBool (x && y))

/-- The texts that can come up when `input` are the texts of a document, `values` those of the values of the overlays,
`paths` those on paths that may be created, and `added` those of values to be combined with texts in the document. -/
inductive TextFrom (E : Sed) (input values paths added : Str → Prop) : Str → Prop
  | input (t : Str) : input t → TextFrom E input values paths added t
  | value (t c : Str) : values t → FilledFrom E t c → TextFrom E input values paths added c
  | path (t c : Str) : paths t → FilledFrom E t c → TextFrom E input values paths added c
  | empty : TextFrom E input values paths added []
  | combined (a b c : Str) : TextFrom E input values paths added a → added b → CombinedOf a b c →
      TextFrom E input values paths added c

/-- The texts in the values of overlays. -/
def ValueText (os : List (Option DOverlay)) (t : Str) : Prop := ∃ o, some o ∈ os ∧ t ∈ textsIn o.base.value

/-- The texts on the paths that overlays may create. -/
def PathText (os : List (Option DOverlay)) (t : Str) : Prop :=
  ∃ o, some o ∈ os ∧ ∃ q ∈ createdPaths o, ∃ n, buildPath q.str = .ok n ∧ t ∈ textsIn n

/-- The texts that overlays combine with what they find. -/
def AddedText (os : List (Option DOverlay)) (t : Str) : Prop := ∃ o, some o ∈ os ∧ o.base.action = .combine ∧ t = o.base.value.hd.value

end Yot.Spec
