import Verif.Model.File
/-
Specification of which overlays reach a document, and in which order.
-/
namespace Yot.Spec

/-- A file-level overlay selects document `i`. -/
def Selects (o : Overlay) (i : Nat) : Prop :=
  ∀ is, o.documentIndex = some is → (i : Int) ∈ is

instance (o : Overlay) (i : Nat) : Decidable (Selects o i) :=
  match h : o.documentIndex with
  | none => isTrue (by intro is; simp [h])
  | some l => if hm : (i : Int) ∈ l then isTrue (by intro is; rw [h]; rintro ⟨⟩; exact hm)
    else isFalse (fun hc => hm (hc l h))

/-- The overlays that reach document `i`: those of the file that select it, then
those listed under `documents` for it. -/
def overlaysFor (yf : YamlFile) (i : Nat) : List Overlay :=
  yf.overlays.filter (fun o => decide (Selects o i)) ++
  (yf.documents.filter (fun d => d.path = (i : Int))).flatMap (fun d => d.overlays)

/-- Apply overlays one after the other, each to the result of the previous one;
the first error ends it. -/
def applyAll (E : Sed) (dflt : Str) : List Overlay → Node → Res Err Node
  | [], d => .ok d
  | o :: os, d => applyJob E dflt o d >>= applyAll E dflt os

end Yot.Spec
