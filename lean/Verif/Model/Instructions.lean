import Verif.Model.File
import Verif.Model.GoPath
import Verif.Model.Slices
/-
internal/instructions/{instructions,yamlfile,utils,config}.go: from the decoded
instructions to the list of files to process and where to write them.
-/
namespace Yot

/-! ### Duplicate entries -/

/-- yamlfile.go:167-171: the entry `y` is added to the earlier entry `d` for the
same path. -/
def YamlFile.absorb (d y : YamlFile) : YamlFile :=
  { d with
    overlays := d.overlays ++ y.overlays
    documents := d.documents ++ y.documents
    outputPath := if y.outputPath ≠ [] then y.outputPath else d.outputPath }

/-- yamlfile.go:163-175, one iteration: `done` are the entries before index `i`;
`search` holds exactly these, by path. -/
def mergeDupStep (done : List YamlFile) (y : YamlFile) : List YamlFile :=
  if done.any (fun d => d.path = y.path) then
    done.map (fun d => if d.path = y.path then d.absorb y else d)
  else done ++ [y]

/-- yamlfile.go:158-178 `mergeDuplicates`. -/
def mergeDuplicates (ys : List YamlFile) : List YamlFile := ys.foldl mergeDupStep []

/-! ### The same on slices (only the overlay lists; documents are alike) -/

/-- yamlfile.go:167 on slices: `append(search[p].Overlays, ys[i].Overlays...)`. -/
def absorbM {α : Type} (grow : Nat → Nat → Nat) (m : Mem α) (p : Str) (xs : List α) :
    List (Str × Slice) → Mem α × List (Str × Slice)
  | [] => (m, [])
  | d :: ds =>
    if d.1 = p then
      let r := m.append grow d.2 xs
      (r.1, (d.1, r.2) :: ds)
    else
      let r := absorbM grow m p xs ds
      (r.1, d :: r.2)

/-- yamlfile.go:158-178 `mergeDuplicates`, on the paths and overlay slices. -/
def mergeDupM {α : Type} (grow : Nat → Nat → Nat) : Mem α → List (Str × Slice) → List (Str × Slice) →
    Mem α × List (Str × Slice)
  | m, done, [] => (m, done)
  | m, done, y :: ys =>
    if done.any (fun d => d.1 = y.1) then
      let r := absorbM grow m y.1 (m.read y.2) done
      mergeDupM grow r.1 r.2 ys
    else mergeDupM grow m (done ++ [y]) ys

/-- instructions.go:113-117 `addCommonOverlays`. -/
def addCommonM {α : Type} (grow : Nat → Nat → Nat) (common : Slice) : Mem α → List Slice → Mem α × List Slice
  | m, [] => (m, [])
  | m, s :: ss =>
    let r := m.append grow common (m.read s)
    let rs := addCommonM grow common r.1 ss
    (rs.1, r.2 :: rs.2)

/-- config.go:171-185 `ReadAdHocOverlays`: the overlay of the command line, if any,
is appended to the common overlays. -/
def addCommandLineM {α : Type} (grow : Nat → Nat → Nat) (m : Mem α) (common : Slice) : Option α → Mem α × Slice
  | none => (m, common)
  | some o => m.append grow common [o]

/-- The overlay slices of the files as `GetInstructions` leaves them
(instructions.go:27-68, with 59-82 of yamlfile.go): duplicates merged, command
line overlay added, common overlays put in front. -/
def overlaySlices {α : Type} (grow : Nat → Nat → Nat) (m : Mem α) (common : Slice) (cli : Option α)
    (entries : List (Str × Slice)) : Mem α × List (Str × Slice) :=
  let r1 := mergeDupM grow m [] entries
  let r2 := addCommandLineM grow r1.1 common cli
  let r3 := addCommonM grow r2.2 r2.1 (r1.2.map Prod.snd)
  (r3.1, (r1.2.map Prod.fst).zip r3.2)

/-! ### Directories -/

/-- A file system object: a file, a symbolic link (to a directory, to a file, or
dangling), or a directory with its entries in the order `filepath.Walk` visits them. (utils.go:74-108) -/
inductive FsNode where
  | file
  | link (toDirectory : Option Bool)
  | dir (entries : List (Str × FsNode))

/-- The object at a path (without following a final link). (utils.go:74-108) -/
abbrev Fs := Str → Option FsNode

/-- utils.go:74-82 `isDirectory` (`os.Stat` follows links); `none` is an error. -/
def isDirectory (fs : Fs) (p : Str) : Option Bool :=
  match fs p with
  | none => none
  | some .file => some false
  | some (.link b) => b
  | some (.dir _) => some true

/-- utils.go:97: `.yaml` or `.yml`. -/
def isYamlName (p : Str) : Bool := extOf p = c!".yaml" || extOf p = c!".yml"

mutual
/-- utils.go:84-108, the `filepath.Walk` of `getFileNames`: links are not
followed.  Simplification: reading a directory does not fail. -/
def walkFs (p : Str) : FsNode → List Str
  | .file => if isYamlName p then [p] else []
  | .link _ => if isYamlName p then [p] else []
  | .dir es => walkEntries p es
/-- The entries of the directory `p`. (utils.go:87-102) -/
def walkEntries (p : Str) : List (Str × FsNode) → List Str
  | [] => []
  | e :: es => walkFs (pathJoin [p, e.1]) e.2 ++ walkEntries p es
end

/-- utils.go:84-108 `getFileNames`. -/
def getFileNames (fs : Fs) (p : Str) : List Str :=
  match fs p with
  | none => []
  | some n => walkFs p n

/-- Outcome of `expandDirectories`. (yamlfile.go:111-156) -/
inductive Expanded (O D : Type) where
  | done (ys : List (Entry O D))
  | err
  | running
-- `running`: the loop has not ended within the given number of iterations.

/-- yamlfile.go:121-123: a relative path is taken from the directory of the
instructions file. -/
def resolvePath (dir p : Str) : Str := if isAbs p then p else pathJoin [dir, p]

/-- yamlfile.go:136-143: the entry for one file of a directory entry. -/
def Entry.forFile {O D : Type} (y : Entry O D) (p : Str) : Entry O D :=
  { name := y.name, overlays := y.overlays, documents := y.documents, path := p, outputPath := y.outputPath }

/-- yamlfile.go:111-156 `expandDirectories`: `done` are the entries before index
`i`, the list the others; `fuel` counts iterations. -/
def expandLoop {O D : Type} (fs : Fs) (dir : Str) : Nat → List (Entry O D) → List (Entry O D) → Expanded O D
  | _, done, [] => .done done
  | 0, _, _ :: _ => .running
  | fuel + 1, done, y :: ys =>
    if y.path = ['-'] then expandLoop fs dir fuel (done ++ [y]) ys
    else
      let p := resolvePath dir y.path
      match isDirectory fs p with
      | none => .err
      | some false => expandLoop fs dir fuel (done ++ [{ y with path := p }]) ys
      | some true =>
        if extOf y.outputPath ≠ [] then .err
        else expandLoop fs dir fuel done (ys ++ (getFileNames fs p).map y.forFile)

/-! ### Output paths -/

/-- The longest common prefix. (utils.go:36-72) -/
def lcp : Str → Str → Str
  | a :: s, b :: t => if a = b then a :: lcp s t else []
  | _, _ => []

/-- utils.go:62-68: cut before the last slash, if there is one. -/
def cutLastSlash (c : Str) : Str :=
  if '/' ∈ c then ((c.reverse.dropWhile (· ≠ '/')).drop 1).reverse else c

/-- utils.go:36-71 `GetCommonPrefix` with separator `/`.  Lines 48-60 compute the
longest common prefix of `c` and `v`.  (Go compares bytes; a cut inside a
character is undone by cutting at the last slash, or leaves a prefix that matches
nothing, as here.) -/
def getCommonPrefix : List Str → Str
  | [] => []
  | [p] => dirOf (clean p) ++ ['/']
  | p :: ps =>
    cutLastSlash (ps.foldl (fun c v => lcp c (clean v ++ ['/'])) (clean p ++ ['/'])) ++ ['/']

/-- instructions.go:130-136: the output path of one file. -/
def outputPathFor {O D : Type} (pre : Str) (y : Entry O D) : Str :=
  if y.outputPath = [] then trimPrefix pre y.path
  else if extOf y.outputPath = [] then pathJoin [y.outputPath, baseOf y.path]
  else y.outputPath

/-- instructions.go:119-137 `setOutputPath`. -/
def setOutputPaths {O D : Type} (ys : List (Entry O D)) : List (Entry O D) :=
  let pre := getCommonPrefix ((ys.map (·.path)).filter (· ≠ ['-']))
  ys.map fun y => { y with outputPath := outputPathFor pre y }

/-- config.go:79-82, the name of the file opened for output. -/
def outputName {O D : Type} (outDir : Str) (y : Entry O D) : Str :=
  if isAbs y.outputPath then y.outputPath else pathJoin [outDir, y.outputPath]

end Yot
