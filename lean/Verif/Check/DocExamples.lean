import Verif.Spec.Build
import Verif.Spec.JsonPath
import Verif.Model.Overlay
/-
The examples of the documentation (docs/sections/formatMarkers.md, useCasesForKubernetes.md,
overlayActions.md), evaluated on the model: as `Check/RepoTests`, evidence that the model computes
what the tool is documented to compute, and no proof of any property.
-/
namespace Yot.Check.Docs
open Ex Spec

/-- A comment behind a node. -/
def behind (t : Str) (n : Node) : Node := .mk { n.hd with line := t } n.content
/-- A comment above a node. -/
def above (t : Str) (n : Node) : Node := .mk { n.hd with head := t } n.content
/-- A comment under a node. -/
def under (t : Str) (n : Node) : Node := .mk { n.hd with foot := t } n.content
/-- In double quotes. -/
def quoted (n : Node) : Node := .mk { n.hd with style := 2 } n.content

/-- A text with `page` in place of `site`. -/
def pageToSite : Str → Str
  | 'p' :: 'a' :: 'g' :: 'e' :: r => 's' :: 'i' :: 't' :: 'e' :: pageToSite r
  | c :: r => c :: pageToSite r
  | [] => []

/-- A sed engine that knows the command of the example; it ends the text with a line break, as
Go-Sed does. -/
def siteSed : Sed := ⟨fun c => c = c!"s/page/site/g", fun _ v => (pageToSite v ++ c!"\n", true)⟩

/-- useCasesForKubernetes.md, my-app.yaml: the annotation, the labels, the image, the name of the
app (in five places). -/
def app (annos : List Node) (labels : Node) (image : Node) (name : Str) : Node :=
  dc (mp [sc c!"apiVersion", sc c!"v1", sc c!"kind", sc c!"Pod",
    sc c!"metadata", mp (annos ++ [sc c!"labels", labels, sc c!"name", sc name, sc c!"namespace", sc name]),
    sc c!"spec", mp [sc c!"containers", sq [mp [sc c!"image", image, sc c!"name", sc name,
      sc c!"ports", sq [mp [sc c!"containerPort", sc c!"443" c!"!!int"]], sc c!"resources", mp []]],
      sc c!"dnsPolicy", sc c!"ClusterFirst", sc c!"restartPolicy", sc c!"Always"]])

/-- Its annotation. -/
def appAnnos (v : Node) : List Node := [sc c!"annotations", mp [sc c!"my.custom.annotation/fake", v]]

/-- Its label. -/
def label1 (k : Node) : Node := mp [k, sc c!"my-web-page"]

/-- my-app.yaml -/
def app0 : Node := app (appAnnos (sc c!"idk")) (label1 (sc c!"name")) (sc c!"nginx:latest") c!"my-web-page"

/-- useCasesForKubernetes.md, my-service.yaml. -/
def service (annos : List Node) (labels selector : Node) : Node :=
  dc (mp [sc c!"apiVersion", sc c!"v1", sc c!"kind", sc c!"Service",
    sc c!"metadata", mp (annos ++ [sc c!"labels", labels, sc c!"name", sc c!"my-service", sc c!"namespace", sc c!"my-web-page"]),
    sc c!"spec", mp [sc c!"ports", sq [mp [sc c!"name", sc c!"8443-443", sc c!"port", sc c!"8443" c!"!!int",
      sc c!"protocol", sc c!"TCP", sc c!"targetPort", sc c!"443" c!"!!int"]],
      sc c!"selector", selector, sc c!"type", sc c!"LoadBalancer"]])

/-- Its annotation. -/
def serviceAnnos (v : Node) : List Node :=
  [sc c!"annotations", mp [sc c!"service.beta.kubernetes.io/aws-load-balancer-type", v]]

/-- my-service.yaml -/
def service0 : Node := service (serviceAnnos (sc c!"nlb")) (label1 (sc c!"name")) (label1 (sc c!"name"))

/-- `.a.b.c` -/
def path (ks : List Str) : List PStep := ks.map PStep.child

/-- The overlay on a document. -/
def run (E : Sed) (a : Action) (qs : List (List PStep)) (v : Node) (doc : Node) : Option Node :=
  tree (applyJob E [] { query := qs.map (fun q => ⟨[], findSteps q⟩), action := a, value := v } doc)

/-- "Simple sed string replacement" (formatMarkers.md:50-116): `"%k": "%v{s/page/site/g}"` merged
into three labels. -/
example :
    run siteSed .merge [path [c!"metadata", c!"labels"]] (mp [quoted (sc c!"%k"), quoted (sc c!"%v{s/page/site/g}")])
      (app (appAnnos (sc c!"idk")) (mp [sc c!"name", sc c!"my-web-page", sc c!"app", sc c!"my-web-page", sc c!"owner", sc c!"my-web-page"])
        (sc c!"nginx:latest") c!"my-web-page") =
    some (app (appAnnos (sc c!"idk")) (mp [sc c!"name", sc c!"my-web-site", sc c!"app", sc c!"my-web-site", sc c!"owner", sc c!"my-web-site"])
        (sc c!"nginx:latest") c!"my-web-page") := by
  decide +kernel

/-- "Forcing types with YAML tags" (formatMarkers.md:124-156): an integer stays one if the value
has the tag `!!int`, and becomes a string otherwise. -/
example : ∀ tag ∈ [c!"!!int", c!"!!str"],
    run noSed .merge [path [c!"replicas"]] (behind c!"# new comment" (quoted (sc c!"%v" tag))) (dc (mp [sc c!"replicas", sc c!"3" c!"!!int"])) =
    some (dc (mp [sc c!"replicas", behind c!"# new comment" (sc c!"3" tag)])) := by
  decide +kernel

/-- "Adding additional labels and selectors" -/
example :
    let more := [sc c!"app.kubernetes.io/owner", sc c!"Jeff Smith", sc c!"app.kubernetes.io/purpose", sc c!"static-webpage"]
    let qs := [path [c!"metadata", c!"labels"], path [c!"spec", c!"template", c!"metadata", c!"labels"],
      path [c!"spec", c!"selector", c!"matchLabels"], path [c!"spec", c!"selector"]]
    let now := mp ([sc c!"name", sc c!"my-web-page"] ++ more)
    run noSed .merge qs (mp more) app0 = some (app (appAnnos (sc c!"idk")) now (sc c!"nginx:latest") c!"my-web-page") ∧
    run noSed .merge qs (mp more) service0 = some (service (serviceAnnos (sc c!"nlb")) now now) := by
  decide +kernel

/-- "Prepend a private registry URL to all container images" -/
example :
    let v := behind c!"# old value was: %v" (sc c!"my-private-reg/%v")
    run noSed .merge [[.anywhere, .child c!"image"]] v app0 =
      some (app (appAnnos (sc c!"idk")) (label1 (sc c!"name"))
        (behind c!"# old value was: nginx:latest" (sc c!"my-private-reg/nginx:latest")) c!"my-web-page") ∧
    run noSed .merge [[.anywhere, .child c!"image"]] v service0 = some service0 := by
  decide +kernel

/-- "Modify the name of a label's key", first overlay -/
example :
    let v := behind c!"# the old key was %v" (sc c!"app.kubernetes.io/%v")
    run noSed .merge [path [c!"metadata", c!"labels"] ++ [.key c!"name"]] v service0 =
      some (service (serviceAnnos (sc c!"nlb"))
        (label1 (behind c!"# the old key was name" (sc c!"app.kubernetes.io/name"))) (label1 (sc c!"name"))) := by
  decide +kernel

/-- "Modify the name of a label's key", second overlay -/
example :
    let v := mp [sc c!"app.kubernetes.io/%k", behind c!"# the old key was %k" (quoted (sc c!"%v"))]
    run noSed .merge [path [c!"spec", c!"selector"]] v service0 =
      some (service (serviceAnnos (sc c!"nlb")) (label1 (sc c!"name"))
        (mp [sc c!"app.kubernetes.io/name", behind c!"# the old key was name" (sc c!"my-web-page")])) := by
  decide +kernel

/-- "Replace the name of a label's key" -/
example :
    let v := behind c!"# old label key was: %v" (sc c!"my-new-label")
    run noSed .replace [path [c!"metadata", c!"labels"] ++ [.key c!"name"]] v service0 =
      some (service (serviceAnnos (sc c!"nlb"))
        (label1 (behind c!"# old label key was: name" (sc c!"my-new-label"))) (label1 (sc c!"name"))) := by
  decide +kernel

/-- "Remove all annotations" -/
example :
    run noSed .delete [path [c!"metadata", c!"annotations"]] (.mk {} []) app0 =
      some (app [] (label1 (sc c!"name")) (sc c!"nginx:latest") c!"my-web-page") ∧
    run noSed .delete [path [c!"metadata", c!"annotations"]] (.mk {} []) service0 =
      some (service [] (label1 (sc c!"name")) (label1 (sc c!"name"))) := by
  decide +kernel

/-- A condition on a path. -/
def holds (ks : List Str) (w : Str) : Condition := ⟨[⟨[], findSteps (path ks)⟩], sc w⟩

/-- "Remove annotations from specific Kubernetes object types": the service's are removed, the
app's are not. -/
example :
    let o : Overlay := { query := [⟨[], findSteps (path [c!"metadata", c!"annotations"])⟩], action := .delete,
                         documentQuery := [[holds [c!"kind"] c!"Service", holds [c!"metadata", c!"namespace"] c!"my-web-page"],
                           [holds [c!"metadata", c!"name"] c!"my-service"]] }
    tree (applyJob noSed [] o app0) = some app0 ∧
    tree (applyJob noSed [] o service0) = some (service [] (label1 (sc c!"name")) (label1 (sc c!"name"))) := by
  decide +kernel

/-- "Insert comments", the first two overlays -/
example :
    run noSed .merge [path [c!"metadata", c!"annotations", c!"my.custom.annotation/fake"],
        path [c!"metadata", c!"annotations", c!"service.beta.kubernetes.io/aws-load-balancer-type"]]
      (behind c!"# insert a line comment" (quoted (sc c!"%v"))) app0 =
      some (app (appAnnos (behind c!"# insert a line comment" (sc c!"idk"))) (label1 (sc c!"name")) (sc c!"nginx:latest") c!"my-web-page") ∧
    run noSed .replace [path [c!"spec", c!"containers"] ++ [.item 0, .child c!"image"]]
      (behind c!"# old value was: %v" (sc c!"new-image:latest")) app0 =
      some (app (appAnnos (sc c!"idk")) (label1 (sc c!"name"))
        (behind c!"# old value was: nginx:latest" (sc c!"new-image:latest")) c!"my-web-page") := by
  decide +kernel

/-- "Insert comments", the third overlay: head and foot comments are on the keys. -/
example :
    let more := [above c!"# insert a head comment" (sc c!"app.kubernetes.io/owner"), behind c!"# insert a line comment" (sc c!"Jeff Smith"),
      under c!"# insert a foot comment" (sc c!"app.kubernetes.io/purpose"), behind c!"# insert another line comment" (sc c!"static-webpage")]
    run noSed .merge [path [c!"metadata", c!"labels"]] (mp more) app0 =
      some (app (appAnnos (sc c!"idk")) (mp ([sc c!"name", sc c!"my-web-page"] ++ more)) (sc c!"nginx:latest") c!"my-web-page") := by
  decide +kernel

/-- "Replace all instances of a string": `..*[?(@ == 'my-web-page')]`. -/
example :
    run noSed .replace [[.anywhere, .all, .filter (fun _ n => n.hd.kind = .scalar && n.hd.value = c!"my-web-page")]] (sc c!"website") app0 =
      some (app (appAnnos (sc c!"idk")) (mp [sc c!"name", sc c!"website"]) (sc c!"nginx:latest") c!"website") := by
  decide +kernel

/-- overlayActions.md:37-49, "Combine Example". -/
example :
    run noSed .combine [path [c!"metadata", c!"labels", c!"app.kubernetes.io/name"]] (quoted (sc c!"-dev"))
      (dc (mp [sc c!"metadata", mp [sc c!"labels", mp [sc c!"app.kubernetes.io/name", sc c!"web"]]])) =
      some (dc (mp [sc c!"metadata", mp [sc c!"labels", mp [sc c!"app.kubernetes.io/name", sc c!"web-dev"]]])) := by
  decide +kernel

end Yot.Check.Docs
