import Verif.Spec.Build
import Verif.Spec.JsonPath
import Verif.Model.File
import Verif.Model.Output
import Verif.Model.Decode
import Verif.Model.Commands
/-
The repository's own unit tests, transcribed: what each expects of the code is evaluated on the
model.  These are no proofs of any property; they are evidence that the model computes what the
code computes (a model that disagreed with one of them would not compile).  The YAML text of a
test is given as the nodes yaml.v3 decodes it to, and the path expressions as steps (decoder and
query library are external).
-/
namespace Yot.Check
open Ex Spec

/-- A line of a mapping. -/
def int (v : Str) : Node := sc v c!"!!int"
/-- A boolean. -/
def boo (v : Str) : Node := sc v c!"!!bool"

/-- A comment above a node. -/
def above (t : Str) (n : Node) : Node := .mk { n.hd with head := t } n.content
/-- A comment behind a node. -/
def behind (t : Str) (n : Node) : Node := .mk { n.hd with line := t } n.content
/-- A comment under a node. -/
def under (t : Str) (n : Node) : Node := .mk { n.hd with foot := t } n.content
/-- In double quotes. -/
def quoted (n : Node) : Node := .mk { n.hd with style := 2 } n.content

/-- actions_test.go:31-58, an entry of `spec.ports`. -/
def port (name p proto : Str) : Node :=
  mp [sc c!"name", sc name, sc c!"port", int p, sc c!"protocol", sc proto, sc c!"targetPort", sc name]

/-- The same with a `targetPort` of its own. -/
def port4 (name : Node) (p proto target : Str) : Node :=
  mp [sc c!"name", name, sc c!"port", int p, sc c!"protocol", sc proto, sc c!"targetPort", sc target]

/-- The comment on the annotation. -/
def note : Str := c!"# NOTE: this only works on 1.19.1+vmware.1+, but not prior\n## This annotation will be ignored on other cloud providers"

/-- `metadata` with the given labels and annotations. -/
def metadata (labels : List Node) (rest : List Node) : Node :=
  mp ([sc c!"name", sc c!"bind-udp", sc c!"namespace", sc c!"tanzu-dns", sc c!"labels", mp labels] ++ rest)

/-- The labels. -/
def labels : List Node := [sc c!"app.kubernetes.io/name", sc c!"external-dns"]

/-- The annotations. -/
def annotations (v : Node) : List Node :=
  [sc c!"annotations", mp [above note (sc c!"service.beta.kubernetes.io/aws-load-balancer-type"), v]]

/-- The metadata. -/
def meta0 : Node := metadata labels (annotations (sc c!"nlb"))

/-- `spec` with a given `ports` entry and the two booleans. -/
def spec (key : Str) (ports : Node) (case0 case1 : Str) : Node :=
  mp [sc c!"selector", mp labels, sc c!"type", sc c!"LoadBalancer", sc key, ports,
    above c!"# add some fake boolean values for testing" (sc c!"boolTest"),
    mp [sc c!"case0", boo case0, sc c!"case1", boo case1]]

/-- The ports. -/
def ports0 : List Node := [port c!"dns-udp" c!"53" c!"UDP", port c!"dns-tcp" c!"53" c!"TCP"]

/-- The spec. -/
def spec0 : Node := spec c!"ports" (sq ports0) c!"false" c!"true"

/-- A document of the tests: what is in `kind`, `metadata` and `spec`. -/
def docOf (kind : List Node) (m s : Node) : Node :=
  dc (mp ([sc c!"apiVersion", sc c!"v1"] ++ kind ++ [sc c!"metadata", m, sc c!"spec", s]))

/-- `kind`. -/
def kind0 : List Node := [sc c!"kind", sc c!"Service"]

/-- actions_test.go:31-58, the document. -/
def doc0 : Node := docOf kind0 meta0 spec0

/-- actions_test.go:78-96 `runTests`: the action on the matches of the query, here through the
overlay (each query of the tests has one match). -/
def run (a : Action) (q : List PStep) (v : Node) : Option Node :=
  tree (applyJob noSed [] { query := [⟨[], findSteps q⟩], action := a, value := v } doc0)

/-- `.a.b.c` -/
def path (ks : List Str) : List PStep := ks.map PStep.child

/-- The query of each test has exactly one match. -/
example : ∀ q ∈ ([path [c!"kind"], path [c!"spec", c!"ports"], path [c!"metadata", c!"labels"],
    path [c!"metadata", c!"labels", c!"app.kubernetes.io/name"], path [c!"metadata", c!"annotations"],
    path [c!"spec", c!"ports"] ++ [.item 0, .child c!"name"], path [c!"spec", c!"ports"] ++ [.item 1, .child c!"port"],
    path [c!"spec"] ++ [.key c!"ports"], path [c!"spec", c!"ports"] ++ [.item 0],
    path [c!"spec", c!"boolTest", c!"case0"], path [c!"spec", c!"boolTest", c!"case1"],
    path [c!"metadata", c!"annotations", c!"service.beta.kubernetes.io/aws-load-balancer-type"]] : List (List PStep)),
    (findSteps q doc0).length = 1 := by decide +kernel

/-! merge_test.go, `TestMergeNode` -/

/-- "Merge Sequence Node (array)" -/
example : run .merge (path [c!"spec", c!"ports"]) (sq [port4 (sc c!"sequenceTest") c!"22" c!"TCP" c!"sshd"]) =
    some (docOf kind0 meta0 (spec c!"ports" (sq (ports0 ++ [port4 (sc c!"sequenceTest") c!"22" c!"TCP" c!"sshd"])) c!"false" c!"true")) := by
  decide +kernel

/-- "Merge map" -/
example : run .merge (path [c!"metadata", c!"labels"])
    (mp [sc c!"foo", sc c!"bar", sc c!"bar", sc c!"foo", sc c!"potato", sc c!"badayda"]) =
    some (docOf kind0 (metadata (labels ++ [sc c!"foo", sc c!"bar", sc c!"bar", sc c!"foo", sc c!"potato", sc c!"badayda"])
      (annotations (sc c!"nlb"))) spec0) := by
  decide +kernel

/-- "Merge map (inject line comment)" -/
example : run .merge (path [c!"metadata", c!"labels"])
    (mp [sc c!"foo", sc c!"bar", sc c!"bar", sc c!"foo", sc c!"potato",
      behind c!"# sometimes encountered in the northeast" (sc c!"badayda")]) =
    some (docOf kind0 (metadata (labels ++ [sc c!"foo", sc c!"bar", sc c!"bar", sc c!"foo", sc c!"potato",
      behind c!"# sometimes encountered in the northeast" (sc c!"badayda")]) (annotations (sc c!"nlb"))) spec0) := by
  decide +kernel

/-- "Merge map (with line comment)": the style is the document's, as the test expects it unquoted. -/
example : run .merge (path [c!"metadata", c!"labels"])
    (mp [sc c!"app.kubernetes.io/name", behind c!"# test" (quoted (sc c!"%v"))]) =
    some (docOf kind0 (metadata [sc c!"app.kubernetes.io/name", behind c!"# test" (sc c!"external-dns")]
      (annotations (sc c!"nlb"))) spec0) := by
  decide +kernel

/-- "Format Scalar Node (only type accepted for format action)" -/
example : run .merge (path [c!"kind"]) (sc c!"My%v") = some (docOf [sc c!"kind", sc c!"MyService"] meta0 spec0) := by
  decide +kernel

/-- "Format Scalar Node Key" -/
example : run .merge (path [c!"spec"] ++ [.key c!"ports"]) (sc c!"s%v") =
    some (docOf kind0 meta0 (spec c!"sports" (sq ports0) c!"false" c!"true")) := by
  decide +kernel

/-- "Format Scalar Node in Array with head, line, foot comments" -/
example : run .merge (path [c!"spec", c!"ports"] ++ [.item 0, .child c!"name"])
    (above c!"# head" (behind c!"# line" (under c!"# foot" (quoted (sc c!"%v-port"))))) =
    some (docOf kind0 meta0 (spec c!"ports" (sq
      [port4 (above c!"# head" (behind c!"# line" (under c!"# foot" (sc c!"dns-udp-port")))) c!"53" c!"UDP" c!"dns-udp",
       port c!"dns-tcp" c!"53" c!"TCP"]) c!"false" c!"true")) := by
  decide +kernel

/-! replace_test.go, `TestReplaceNode` -/

/-- "Replace string" in a label -/
example : run .replace (path [c!"metadata", c!"labels", c!"app.kubernetes.io/name"]) (sc c!"rpk-dns") =
    some (docOf kind0 (metadata [sc c!"app.kubernetes.io/name", sc c!"rpk-dns"] (annotations (sc c!"nlb"))) spec0) := by
  decide +kernel

/-- a number in a list -/
example : run .replace (path [c!"spec", c!"ports"] ++ [.item 1, .child c!"port"]) (int c!"953") =
    some (docOf kind0 meta0 (spec c!"ports" (sq [port c!"dns-udp" c!"53" c!"UDP", port c!"dns-tcp" c!"953" c!"TCP"]) c!"false" c!"true")) := by
  decide +kernel

/-- "Replace entire array" -/
example : let v := sq [port4 (sc c!"fake-data") c!"9999" c!"TCP" c!"my-fake-port",
      port4 (sc c!"fake-data2") c!"1111" c!"UDP" c!"another-fake-port"]
    run .replace (path [c!"spec", c!"ports"]) v =
    some (docOf kind0 meta0 (spec c!"ports" v c!"false" c!"true")) := by
  decide +kernel

/-! delete_test.go, `TestDeleteNode` -/

/-- a scalar -/
example : run .delete (path [c!"kind"]) (.mk {} []) = some (docOf [] meta0 spec0) := by
  decide +kernel

/-- a mapping -/
example : run .delete (path [c!"metadata", c!"annotations"]) (.mk {} []) =
    some (docOf kind0 (metadata labels []) spec0) := by
  decide +kernel

/-- "Delete Seq Node" -/
example : run .delete (path [c!"spec", c!"ports"] ++ [.item 0]) (.mk {} []) =
    some (docOf kind0 meta0 (spec c!"ports" (sq [port c!"dns-tcp" c!"53" c!"TCP"]) c!"false" c!"true")) := by
  decide +kernel

/-! combine_test.go, `TestCombineNode` -/

/-- strings -/
example : run .combine (path [c!"metadata", c!"labels", c!"app.kubernetes.io/name"]) (sc c!"es") =
    some (docOf kind0 (metadata [sc c!"app.kubernetes.io/name", sc c!"external-dnses"] (annotations (sc c!"nlb"))) spec0) := by
  decide +kernel

/-- integers -/
example : run .combine (path [c!"spec", c!"ports"] ++ [.item 1, .child c!"port"]) (int c!"53") =
    some (docOf kind0 meta0 (spec c!"ports" (sq [port c!"dns-udp" c!"53" c!"UDP", port c!"dns-tcp" c!"106" c!"TCP"]) c!"false" c!"true")) := by
  decide +kernel

/-- booleans: `false` and `true`, `false` and `false` -/
example : ∀ v ∈ [c!"true", c!"false"], run .combine (path [c!"spec", c!"boolTest", c!"case0"]) (boo v) =
    some (docOf kind0 meta0 (spec c!"ports" (sq ports0) c!"false" c!"true")) := by
  decide +kernel

/-- booleans: `true` and `true`, `true` and `false` -/
example : ∀ v ∈ [c!"true", c!"false"], run .combine (path [c!"spec", c!"boolTest", c!"case1"]) (boo v) =
    some (docOf kind0 meta0 (spec c!"ports" (sq ports0) c!"false" v)) := by
  decide +kernel

/-- "Combine Scalar Node - string (with comments)" -/
example : run .combine (path [c!"metadata", c!"annotations", c!"service.beta.kubernetes.io/aws-load-balancer-type"])
    (above c!"# head" (behind c!"#line" (under c!"# foot" (sc c!"s")))) =
    some (docOf kind0 (metadata labels
      (annotations (above c!"# head" (behind c!"#line" (under c!"# foot" (sc c!"nlbs")))))) spec0) := by
  decide +kernel

/-! action_test.go -/

/-- `TestAction_String` -/
example : [Action.merge, .delete, .replace, .combine, .invalid].map Action.str =
    [c!"merge", c!"delete", c!"replace", c!"combine", []] := by decide

/-- `TestAction_UnmarshalYAML`; the nodes of the test have no tag, which for a plain scalar with
these values means `!!str` (the empty one: `!!null`). -/
example : (∀ w ∈ [c!"merge", c!"replace", c!"delete", c!"combine"], parseAction w = .ok (actionOfName w) ∧
      actionOfName w ≠ .invalid) ∧
    ∀ w ∈ [c!"potato", []], ∃ e, parseAction w = .err e := by
  refine ⟨by decide, ?_⟩
  intro w hw
  rcases List.mem_pair.1 hw with rfl | rfl <;> exact ⟨_, rfl⟩

/-! documentquery_internal_test.go, `TestDocumentQueries_checkQueries` -/

/-- One condition on `kind`. -/
def kindIs (w : Str) : List DocumentQuery :=
  [[⟨[⟨c!"kind", findSteps (path [c!"kind"])⟩], .mk { kind := .scalar, tag := c!"!!str", value := w } []⟩]]

example : checkQueries (kindIs c!"Service") doc0 = true ∧ checkQueries [] doc0 = true ∧
    checkQueries (kindIs c!"Potato") doc0 = false := by decide +kernel

/-! document_internal_test.go, `TestDocument_checkDocumentIndex` -/

example : Document.checkDocumentIndex { name := c!"test 1", path := 0 } 1 = false ∧
    Document.checkDocumentIndex { name := c!"test 1", path := 0 } 0 = true := by decide

/-! values_internal_test.go, `TestGetValues`: the merged node; the test prints it through a Go map,
which sorts the keys. -/

/-- testdata/values/defaults.yaml -/
def defaults : Node := dc (mp [sc c!"too", sc c!"bar", sc c!"yoo", sc c!"car", sc c!"foo", sc c!"you"])
/-- testdata/values/on_premise.yml -/
def onPremise : Node := dc (mp [sc c!"test", sc c!"one", sc c!"two", sc c!"three"])
/-- testdata/values/site_b.yml -/
def siteB : Node := dc (mp [sc c!"foo", sc c!"foo", sc c!"values", sq [int c!"1", int c!"2", int c!"3"], sc c!"yoo", sc c!"bar"])
/-- `foo` of testdata/values/site_a.yaml -/
def siteAFoo : Node := mp [sc c!"bar", mp [sc c!"potato", mp [sc c!"badayda",
  sq [int c!"1", mp [sc c!"cheese", sc c!"burger"],
    mp [sc c!"soup", sq [sc c!"minestrone", sc c!"chicken noodle", sc c!"clam chowder"]]]]]]
/-- testdata/values/site_a.yaml -/
def siteA : Node := dc (mp [sc c!"foo", siteAFoo, sc c!"zarf", sc c!"oo", sc c!"yoo", sc c!"czar"])

/-- "test merging simple values" -/
example : getValues noSed [defaults, onPremise] = .ok (some (dc (mp
    [sc c!"too", sc c!"bar", sc c!"yoo", sc c!"car", sc c!"foo", sc c!"you", sc c!"test", sc c!"one", sc c!"two", sc c!"three"]))) := by
  decide +kernel

/-- "test merge of several override values" -/
example : getValues noSed [defaults, siteB] = .ok (some (dc (mp
    [sc c!"too", sc c!"bar", sc c!"yoo", sc c!"bar", sc c!"foo", sc c!"foo",
     sc c!"values", sq [int c!"1", int c!"2", int c!"3"]]))) := by
  decide +kernel

/-- "multi-file complex merge" -/
example : getValues noSed [defaults, onPremise, siteB, siteA] = .ok (some (dc (mp
    [sc c!"too", sc c!"bar", sc c!"yoo", sc c!"czar", sc c!"foo", siteAFoo,
     sc c!"test", sc c!"one", sc c!"two", sc c!"three",
     sc c!"values", sq [int c!"1", int c!"2", int c!"3"], sc c!"zarf", sc c!"oo"]))) := by
  decide +kernel

/-! completion_test.go, `TestYotConfig_Completions` -/

/-- Scripts for the four shells. -/
def scripts : Scripts := ⟨fun w => if w ∈ shellNames then some (c!"# " ++ w) else none, fun w => w⟩

example : (completions scripts []).1 ≠ .success ∧ (completions scripts [c!"bash", c!"zsh"]).1 ≠ .success ∧
    ∀ w ∈ [c!"bash", c!"zsh", c!"fish", c!"powershell"], (completions scripts [w]).1 = .success := by decide

/-! execute_test.go, `TestExecute`, "test simple execution": testdata/instructions.yaml on
testdata/manifests/test.yaml; the test expects no error. -/

/-- `{"k": "v"}` -/
def flow1 (k v : Str) : Node :=
  .mk { kind := .mapping, style := 32, tag := c!"!!map", nilc := false } [quoted (sc k), quoted (sc v)]

/-- A query of names. -/
def named (text : Str) (ks : List Str) : Query := ⟨text, findSteps (path ks)⟩

/-- A condition. -/
def holds (q : Query) (v : Str) : Condition := ⟨[q], sc v⟩

/-- instructions.yaml:5-22, the common overlays.  (A quote is not special after a dot, to the query
library: `.'app.kubernetes.io/name'` names `'app`, then `kubernetes`, then `io/name'`.) -/
def common : List Overlay :=
  [{ query := [named c!"metadata.labels" [c!"metadata", c!"labels"]], action := .merge, value := flow1 c!"namespace" c!"tanzu-dns",
     documentQuery := [[holds (named c!"kind" [c!"kind"]) c!"Service",
       holds (named c!"metadata.labels.'app.kubernetes.io/name'" [c!"metadata", c!"labels", c!"'app", c!"kubernetes", c!"io/name'"]) c!"external-dns"],
       [holds (named c!"metadata.name" [c!"metadata", c!"name"]) c!"pvc-var-cache-bind"]] },
   { query := [named c!"metadata.labels" [c!"metadata", c!"labels"]], action := .merge, value := flow1 c!"cool_label" c!"bro" }]

/-- The list of instructions.yaml:46-50. -/
def newPorts : Node := sq [port c!"dns-tcp" c!"53" c!"TCP"]

/-- instructions.yaml:26-81, the overlays of the file. -/
def fileOverlays : List Overlay :=
  [{ query := [named c!"metadata.annotations" [c!"metadata", c!"annotations"]], action := .delete,
     value := .mk { kind := .mapping, style := 32, tag := c!"!!map" } [] },
   { query := [named c!"metadata.labels" [c!"metadata", c!"labels"]], action := .merge, value := flow1 c!"some" c!"thing",
     onMissing := { action := .inject } },
   { query := [named c!"apiVersion" [c!"apiVersion"]], action := .replace, value := sc c!"v2alpha1" },
   { query := [named c!"spec.ports" [c!"spec", c!"ports"]], action := .merge, value := newPorts },
   { query := [named c!"spec.ports" [c!"spec", c!"ports"]], action := .replace, value := newPorts },
   { query := [named c!"status" [c!"status"]], action := .merge,
     value := .mk { kind := .mapping, style := 32, tag := c!"!!map" } [] },
   { query := [⟨c!"fake.key1.*", findSteps (path [c!"fake", c!"key1"] ++ [.all])⟩], action := .merge, value := flow1 c!"fake" c!"content1",
     onMissing := { action := .inject } },
   { query := [⟨c!"fake.key2.*", findSteps (path [c!"fake", c!"key2"] ++ [.all])⟩], action := .merge, value := flow1 c!"fake" c!"content2",
     onMissing := { action := .inject, injectPath := some [named c!"fake2.key2" [c!"fake2", c!"key2"]] },
     documentIndex := some [0] }]

/-- instructions.yaml:82-109, the overlays of its first document. -/
def documentOverlays : List Overlay :=
  [{ query := [named c!"a.b.c.d" [c!"a", c!"b", c!"c", c!"d"]], action := .merge, value := flow1 c!"foo" c!"bar",
     onMissing := { action := .inject } },
   { query := [named c!"metadata.labels" [c!"metadata", c!"labels"]], action := .merge, value := flow1 c!"some" c!"one",
     onMissing := { action := .inject } },
   { query := [⟨c!"x.*", findSteps [.child c!"x", .all]⟩], action := .merge, value := flow1 c!"x" c!"x",
     onMissing := { action := .inject, injectPath := some [named c!"x" [c!"x"], named c!"y" [c!"y"], named c!"z" [c!"z"]] } }]

/-- The second document of testdata/manifests/test.yaml, with what is in its labels. -/
def claim (version : Str) (ls : List Node) : Node :=
  dc (mp [sc c!"kind", sc c!"PersistentVolumeClaim", sc c!"apiVersion", sc version,
    sc c!"metadata", mp [sc c!"name", sc c!"pvc-var-cache-bind", sc c!"namespace", sc c!"tanzu-dns", sc c!"labels", mp ls],
    sc c!"spec", mp [sc c!"accessModes", sq [sc c!"ReadWriteOnce", sc c!"TestDelete"],
      sc c!"resources", mp [sc c!"requests", mp [sc c!"storage", sc c!"5Gi"]]]])

/-- The first one: version, what is in its labels, its annotations, ports, and what is behind. -/
def svc (version : Str) (ls annos : List Node) (ports : Node) (rest : List Node) : Node :=
  dc (mp ([sc c!"apiVersion", sc version, sc c!"kind", sc c!"Service", sc c!"metadata", metadata ls annos,
    sc c!"spec", mp [sc c!"selector", mp labels, sc c!"type", sc c!"LoadBalancer", sc c!"ports", ports],
    sc c!"status", .mk { kind := .mapping, style := 32, tag := c!"!!map" } []] ++ rest))

/-- testdata/manifests/test.yaml and what is to be done to it. -/
def testFile : YamlFile :=
  { overlays := common ++ fileOverlays, documents := [{ path := 0, overlays := documentOverlays }],
    nodes := [svc c!"v1" labels (annotations (sc c!"nlb")) (sq [port c!"dns-udp" c!"53" c!"UDP"]) [], claim c!"v1" labels] }

/-- A key, or a mapping, that an injection has made. -/
def mk (k : Str) : Node := .mk { kind := .scalar, value := k } []
/-- See above. -/
def mkMap (cs : List Node) : Node := .mk { kind := .mapping, nilc := false } cs

/-- The run succeeds, and this is what it leaves (not told by the test): the first document gets
the labels (the document's overlays come last), loses the annotations, and is injected into; the
second one gets the labels of both common overlays. -/
example :
    (match runFile noSed [] testFile with | .ok ds => some (ds.map Node.fresh) | _ => none) =
    some [svc c!"v2alpha1"
        (labels ++ [quoted (sc c!"cool_label"), quoted (sc c!"bro"), quoted (sc c!"some"), quoted (sc c!"one")]) [] newPorts
        [mk c!"fake2", mkMap [mk c!"key2", flow1 c!"fake" c!"content2"],
         mk c!"a", mkMap [mk c!"b", mkMap [mk c!"c", mkMap [mk c!"d", flow1 c!"foo" c!"bar"]]],
         mk c!"x", flow1 c!"x" c!"x", mk c!"y", flow1 c!"x" c!"x", mk c!"z", flow1 c!"x" c!"x"],
      claim c!"v2alpha1" (labels ++ [quoted (sc c!"namespace"), quoted (sc c!"tanzu-dns"), quoted (sc c!"cool_label"), quoted (sc c!"bro"),
        quoted (sc c!"some"), quoted (sc c!"thing")])] := by
  decide +kernel

end Yot.Check
