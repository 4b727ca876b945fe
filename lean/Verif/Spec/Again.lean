import Verif.Props.Inject
import Verif.Spec.Commute
import Verif.Spec.Valid
/-
Running the same overlays on what they gave.
-/
namespace Yot.Spec

/-- An overlay at the path of names `ks` that can be repeated: it replaces, deletes or merges
scalars and mappings; what it writes has no format markers; what it injects, it injects at
that path; and a delete does not inject. -/
structure Repeatable (dflt : Str) (ks : List Str) (o : Overlay) : Prop where
  noDocumentQuery : o.documentQuery = []
  kind : o.action = .delete ∨
    (o.action = .replace ∧ ValidNode o.value ∧ NoMarker o.value.hd.head ∧ NoMarker o.value.hd.line ∧ NoMarker o.value.hd.foot) ∨
    (o.action = .merge ∧ ValidNode o.value ∧ ScalarsAndMaps o.value ∧ AllNodes (OnStrings NoMarker) o.value)
  path : ∃ q, o.query = [q] ∧ q.find = findNames ks ∧
    (Injects dflt o.onMissing → o.action ≠ .delete ∧ o.onMissing.injectPath = none ∧ PathOf ks q.str ∧ ∀ k ∈ ks, NoMarker k)

end Yot.Spec
