import Verif.Spec.Pipeline
/-
Ways of saying which documents an overlay is for.
-/
namespace Yot.Spec

/-- The overlay for the documents with these indices. -/
def Overlay.on (o : Overlay) (is : List Int) : Overlay := { o with documentIndex := some is }

/-- The file with the overlays listed under `documents` moved to the end of its own
overlays, each with the index it was listed for as its documentIndex. -/
def byIndex (yf : YamlFile) : YamlFile :=
  { yf with
    overlays := yf.overlays ++ yf.documents.flatMap (fun d => d.overlays.map (fun o => Overlay.on o [d.path]))
    documents := [] }

/-- The file with its own overlays moved under `documents`, in front of what is there: an
entry for each overlay and each document of the file that it selects. -/
def byDocument (yf : YamlFile) : YamlFile :=
  { yf with
    overlays := []
    documents := yf.overlays.flatMap (fun o =>
      ((List.range yf.nodes.length).filter (fun i => decide (Selects o i))).map
        (fun i => { path := i, overlays := [o] })) ++ yf.documents }

/-- The entry with overlays in front of its own. -/
def Written.before (os : List Nat) (e : Written) : Written := { e with overlays := os ++ e.overlays }

/-- `Q` is `P` with the common overlays written in front of the overlays of every entry of
the instructions instead. -/
structure CommonMoved (P Q : Setup) : Prop where
  given : given Q = (given P).map (Written.before (common P))
  none : common Q = []
  sed : Q.sed = P.sed
  dflt : Q.dflt = P.dflt
  outDir : Q.outDir = P.outDir
  fs : Q.fs = P.fs
  dir : Q.dir = P.dir
  read1 : Q.read1 = P.read1
  read2 : Q.read2 = P.read2
  obj : Q.obj = P.obj
  adHoc : P.adHoc = .none ∧ Q.adHoc = .none
  adHocPath : P.adHocPath = [] ∧ Q.adHocPath = []
  removeComments : Q.removeComments = P.removeComments

end Yot.Spec
