import Verif.Model.Decode
import Verif.Spec.Tree
import Mathlib.Data.List.Forall2
/-
What an instructions file says, key by key.
-/
namespace Yot.Spec

/-- A null. -/
def Null (n : Node) : Prop := n.kind = .scalar ∧ n.hd.tag = c!"!!null"

instance (n : Node) : Decidable (Null n) := by unfold Null; infer_instance

/-- The mapping `n` has the value `v` under the key `k`. -/
def KeyAt (n : Node) (k : Str) (v : Node) : Prop :=
  ∃ kn, (kn, v) ∈ pairs n.content ∧ kn.kind = .scalar ∧ ¬ Null kn ∧ kn.hd.value = k

/-- A mapping whose keys are scalars, none of them twice, none a merge key. -/
def Keyed (n : Node) : Prop :=
  n.kind = .mapping ∧ (∀ e ∈ pairs n.content, e.1.kind = .scalar ∧ e.1.hd.tag ≠ c!"!!merge") ∧ (keys n.content).Nodup

/-- The setting `k` of `n` is `a`: `R` relates what is written to it; if nothing or
null is written it is `dflt`. -/
def SettingIs {α : Type} (R : Node → α → Prop) (n : Node) (k : Str) (dflt a : α) : Prop :=
  (∃ v, KeyAt n k v ∧ ¬ Null v ∧ R v a) ∨ ((∀ v, KeyAt n k v → Null v) ∧ a = dflt)

/-- The setting `k` of `n` is the node `a` as written, null or not; the zero node if
there is none. -/
def NodeSetting (n : Node) (k : Str) (a : Node) : Prop :=
  KeyAt n k a ∨ ((¬ ∃ v, KeyAt n k v) ∧ a = zeroNode)

/-- A text. -/
def TextIs (v : Node) (t : Str) : Prop := v.kind = .scalar ∧ v.hd.value = t

/-- A list of things, nulls in between not counting. -/
def ListIs {α : Type} (R : Node → α → Prop) (v : Node) (as : List α) : Prop :=
  v.kind = .sequence ∧ List.Forall₂ R (v.content.filter (fun c => ¬ Null c)) as

/-- A list of things or nulls. -/
def ListOrNullsIs {α : Type} (R : Node → α → Prop) (v : Node) (as : List (Option α)) : Prop :=
  v.kind = .sequence ∧
  List.Forall₂ (fun c oa => (Null c ∧ oa = none) ∨ (¬ Null c ∧ ∃ a, R c a ∧ oa = some a)) v.content as

/-- A query: a text that is a path. -/
def QueryIs (D : Dec) (v : Node) (q : Query) : Prop := TextIs v q.str ∧ D.path q.str = some q.find

/-- One query, or a list of them. -/
def QueriesAre (D : Dec) (v : Node) (qs : List Query) : Prop :=
  (∃ q, QueryIs D v q ∧ qs = [q]) ∨ ListIs (QueryIs D) v qs

/-- An action, in any case of letters. -/
def ActionIs (v : Node) (a : Action) : Prop :=
  ∃ t, TextIs v t ∧ a ≠ .invalid ∧ toLowerStr t = a.str

/-- What to do on a miss: anything but the words "ignore" and "inject" counts as the
default. -/
def OnMissingActionIs (v : Node) (a : OnMissingAction) : Prop :=
  ∃ t, TextIs v t ∧ (a = .ignore ↔ toLowerStr t = c!"ignore") ∧ (a = .inject ↔ toLowerStr t = c!"inject")

/-- An integer. -/
def IntIs (D : Dec) (v : Node) (i : Int) : Prop := v.kind = .scalar ∧ D.int v = some i

/-- A condition of a document query. -/
structure ConditionIs (D : Dec) (n : Node) (c : Condition) : Prop where
  keyed : Keyed n
  query : SettingIs (QueriesAre D) n c!"query" [] c.query
  value : NodeSetting n c!"value" c.value

/-- A document query. -/
structure DocumentQueryIs (D : Dec) (n : Node) (q : List (Option Condition)) : Prop where
  keyed : Keyed n
  conditions : SettingIs (ListOrNullsIs (ConditionIs D)) n c!"conditions" [] q

/-- The setting `onMissing`. -/
structure OnMissingIs (D : Dec) (n : Node) (m : OnMissing) : Prop where
  keyed : Keyed n
  action : SettingIs OnMissingActionIs n c!"action" .default m.action
  injectPath : SettingIs (fun v o => ∃ qs, QueriesAre D v qs ∧ o = some qs) n c!"injectPath" none m.injectPath

/-- An overlay.  If no name is given, its queries serve as name.  If no action is given,
it is merge; an overlay without name gets the zero action instead, which does the same. -/
structure OverlayIs (D : Dec) (n : Node) (o : DOverlay) : Prop where
  keyed : Keyed n
  nameAndAction : ∃ t a, SettingIs TextIs n c!"name" [] t ∧ SettingIs ActionIs n c!"action" .invalid a ∧
    o.base.name = (if t = [] then joinWith ',' (o.base.query.map Query.str) else t) ∧
    o.base.action = (if a = .invalid ∧ t ≠ [] then .merge else a)
  query : SettingIs (QueriesAre D) n c!"query" [] o.base.query
  value : NodeSetting n c!"value" o.base.value
  documentQuery : SettingIs (ListOrNullsIs (DocumentQueryIs D)) n c!"documentQuery" [] o.queries
  onMissing : SettingIs (OnMissingIs D) n c!"onMissing" {} o.base.onMissing
  documentIndex : SettingIs (fun v o => ∃ is, ListIs (IntIs D) v is ∧ o = some is) n c!"documentIndex" none o.base.documentIndex
  rest : o.base.documentQuery = [] ∧ o.pathless = false

/-- An entry under `documents`. -/
structure DocumentIs (D : Dec) (n : Node) (d : DDocument) : Prop where
  keyed : Keyed n
  name : SettingIs TextIs n c!"name" [] d.name
  path : SettingIs (IntIs D) n c!"path" 0 d.path
  overlays : SettingIs (ListOrNullsIs (OverlayIs D)) n c!"overlays" [] d.overlays

/-- An entry under `yamlFiles` (without the key `nodes`, which is not documented). -/
structure FileIs (D : Dec) (n : Node) (f : DFile) : Prop where
  keyed : Keyed n
  name : SettingIs TextIs n c!"name" [] f.name
  overlays : SettingIs (ListOrNullsIs (OverlayIs D)) n c!"overlays" [] f.overlays
  documents : SettingIs (ListOrNullsIs (DocumentIs D)) n c!"documents" [] f.documents
  nodes : (¬ ∃ v, KeyAt n c!"nodes" v) → f.nodes = []
  nodesRead : ∀ v, KeyAt n c!"nodes" v → D.nodes v = some f.nodes
  path : SettingIs TextIs n c!"path" [] f.path
  outputPath : SettingIs TextIs n c!"outputPath" [] f.outputPath

/-- An instructions file: a document with a mapping, or with nothing in it. -/
def InstructionsAre (D : Dec) (doc : Node) (i : DInstr) : Prop :=
  ∃ c rest, doc.content = c :: rest ∧
    ((Null c ∧ i = {}) ∨
     (Keyed c ∧ SettingIs (ListOrNullsIs (OverlayIs D)) c c!"commonOverlays" [] i.common ∧
      SettingIs (ListOrNullsIs (FileIs D)) c c!"yamlFiles" [] i.files))

/-- The keys `ks` have the same values in both mappings; where they are, and which
other keys there are, may differ. -/
def SameSettings (ks : List Str) (n n' : Node) : Prop :=
  Keyed n ∧ Keyed n' ∧ ∀ k ∈ ks, ∀ v, KeyAt n k v ↔ KeyAt n' k v

/-- The keys of an overlay. -/
def overlayKeys : List Str :=
  [c!"name", c!"query", c!"value", c!"action", c!"documentQuery", c!"onMissing", c!"documentIndex"]

/-- The keys of an entry under `documents`. -/
def documentKeys : List Str := [c!"name", c!"path", c!"overlays"]

/-- The keys of an entry under `yamlFiles`. -/
def fileKeys : List Str := [c!"name", c!"overlays", c!"documents", c!"nodes", c!"path", c!"outputPath"]

/-- The keys of an instructions file. -/
def instructionKeys : List Str := [c!"commonOverlays", c!"yamlFiles"]

/-- No null among the document queries of `d`, nor among their conditions, and every query
has a path: `o` is the same overlay with plain lists. -/
def Plain (d : DOverlay) (o : Overlay) : Prop :=
  d.pathless = false ∧ ∃ qs : List DocumentQuery, d.queries = qs.map (fun q => some (q.map some)) ∧ o = { d.base with documentQuery := qs }

/-- No null anywhere in the lists of an entry: `y` is the same entry with plain lists. -/
def PlainFile (f : DFile) (y : YamlFile) : Prop :=
  List.Forall₂ (fun od o => ∃ d, od = some d ∧ Plain d o) f.overlays y.overlays ∧
  List.Forall₂ (fun od d' => ∃ d : DDocument, od = some d ∧ d.path = d'.path ∧
    List.Forall₂ (fun od o => ∃ d, od = some d ∧ Plain d o) d.overlays d'.overlays) f.documents y.documents

/-- A document query is tried on `doc` and does not hold: a condition fails, after some
that hold. -/
def Refuses (doc : Node) (q : List (Option Condition)) : Prop :=
  ∃ (held : List Condition) (c : Condition) (rest : List (Option Condition)), q = held.map some ++ some c :: rest ∧
    (∀ h ∈ held, checkCondition h doc = true) ∧ checkCondition c doc = false

/-- A document query is tried on `doc` and a null condition is met, after some that
hold. -/
def MeetsNull (doc : Node) (q : List (Option Condition)) : Prop :=
  ∃ (held : List Condition) (rest : List (Option Condition)), q = held.map some ++ none :: rest ∧
    ∀ h ∈ held, checkCondition h doc = true

end Yot.Spec
