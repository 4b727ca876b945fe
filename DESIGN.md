# Design: a Lean 4 model of yaml-overlay-tool (yot)

## 1. What is modelled and how

All of the model is plain, total, computable Lean (no axioms, no partial/unsafe).
Strings are `Str = List Char`. A Go `string` of valid UTF-8 is read as its runes;
the path functions (prefix, clean, ext) may equally be read byte-wise.

| Layer | Lean module (under `lean/Verif/`) | Go source |
|---|---|---|
| strings, `path` package | `Model/Str`, `Model/GoPath` | stdlib `strings`, `path` (specified from their documentation) |
| YAML nodes | `Model/Node` | `yaml.Node` (yaml.v3) as a tree; nil/empty `Content` distinguished; address per node |
| format markers | `Model/Format` | `internal/actions/format.go`, `markers.go` |
| actions | `Model/Actions` | `internal/actions/{merge,replace,delete,combine,style,action}.go` |
| path builder | `Model/Lexer`, `Model/Builder` | `internal/builder/{lexer,path}.go` |
| overlays | `Model/Overlay` | `internal/overlays/*.go` |
| instructions | `Model/Instructions`, `Model/Slices` | `internal/instructions/*.go`; Go slices with capacity and shared backing arrays |
| execution | `Model/Execute` | `internal/instructions/execute.go`, `overlays/workstream.go`, `yamlfile.go: queueOverlays`: transition system over goroutine steps |
| log | `Model/Log` | the calls of `log.Noticef`, `log.Debugf`, `log.Warningf` in `internal/overlays`, `internal/instructions/config.go`, `internal/actions/format.go`; log levels |
| whole run | `Model/Pipeline` | `GetInstructions` from decoded instructions (slices of pointers) to the files handed to `Execute`, and the run of these |
| decoding | `Model/Decode` | yaml.v3 decode rules for the struct types, the `UnmarshalYAML` methods, nil pointers from null items, the overlay of the command line |
| configuration | `Model/Config` | `internal/commands/{root,env,flags}.go` + viper lookup order |
| nil pointers | `Model/Nil` | `internal/overlays/{overlay,documentquery,query}.go` with list items that are nil and queries without a compiled path |
| comparison | `Model/Graph`, `Model/Compare` | nodes with the field `Alias`: copying (reprint) and comparing (go-cmp) along it |
| pointers | `Model/Heap`, `Model/HeapApply` | the same actions on an explicit heap of nodes |
| arrays | `Model/Arrays` | the same once more with `Content` as Go slices: length, capacity, backing array, `append` in place or by growing, deletion in place |

External code is a parameter, universally quantified in the theorems: the sed
engine (`Go.Sed`), the JSONPath evaluator (`yaml-jsonpath`), the YAML encoder,
the file system (`stat`, `walk`), the slice growth policy. Where a theorem needs
a fact about one of them the fact is a visible hypothesis.

Errors are values (`Res`: `ok | err | panic`); a Go runtime panic (index out of
range) is the explicit third outcome.

## 2. Property plan

`proved` = theorem at full strength; `partial` = the full property is false of the
code (counterexample theorem) or only part is proved.

| id | model | proof idea |
|---|---|---|
| C01 | `Actions.merge` vs `Spec.deepMerge` on plain data | refinement, induction on overlay tree |
| C02 | `mergeEntries` | induction over overlay entries, frame lemma per entry |
| C03 | `merge` | induction on overlay; false with sequences/markers (witness) |
| C04 | `mergeArray`, `addNode` | computation + sanitize = id on marker-free |
| C05 | `mergeEntries` with marker key | induction over target entries |
| C06 | `doFormat` vs segment-wise substitution | induction over segments; interference witness => partial |
| C07 | `doFormat` with sed parameter | same induction |
| C08 | `sanitizeNode` | tree induction; witness for re-created markers => partial |
| C09 | `mergeComments` | case analysis; counterexample (head comment erases line comment) => partial |
| C10 | `replaceNode` + `modifyAt` | structural |
| C11-C13 | `deleteNode` vs `Spec.prune` | tree induction with unique addresses |
| C14 | `combineNode`, 64-bit wrap | digits round trip; overflow witness => partial |
| C15,C16 | `combineNode` | case analysis, finite table of spellings |
| C17 | `doAction` | `modifyAt` frame by induction |
| C18-C20 | `apply`, `checkQueries`, `cmpEqual` | induction; nil/empty witness => C20 partial |
| C21-C23 | `queue`, sequential run | list induction |
| C24 | `parseAction` | table + case folding lemma |
| C25 | `resolveOnMissing` | case analysis, idempotence over histories |
| C26,C27 | `handleInject` with the child-path evaluator | induction on the path |
| C28,C29,C32 | lexer state machine | invariant over lexer steps |
| C30,C31 | `newPath` | induction over names; comma+quote witness => C31 partial |
| C33 | `apply` | three crash witnesses => partial; proved under the guard, and an exact characterisation of the crashes (Props/Crash) |
| C34 | slices with capacity | loop invariant giving the exact contents of the shared array, for every growth rule; aliasing witness => partial |
| C35 | `mergeDuplicates` | loop invariant |
| C36 | `expandDirectories` with fuel and file system | exact: fails, never finishes (invariant: an entry that comes back), or the listed files; the claim is false in the second case => partial |
| C37-C40 | `getCommonPrefix`, `setOutputPath` | list lemmas; relative/unclean path witnesses => partial |
| C41 | `removeComments` | tree induction; document-level comment witness => partial |
| C42 | `encodeNodes`, `postProcess` | list induction |
| C43,C44 | style functions | induction; repetition witness => C43 partial |
| C45 | `getValues` | fold of C01 |
| C46 | viper lookup | swapped BindEnv witness => partial |
| C47-C51 | transition system | invariants over reachable states, decreasing measure; C51 false (two schedules) |
| C52,C53 | heap model | representation predicate, footprint/frame induction |
| C54 | `parseStyleFlag` from the enumflag documentation | induction on the comma list; misspelt name is a counterexample |
| C55 | `Setup.getInstructions` + `Setup.run` | slice separation invariant through mergeDuplicates and addCommonOverlays, then C36, C22, C48 |
| C56 | `apply` of `Model/Overlay` | induction over the value, the loop invariant of mergeEntries being what stays found in the target; error cases of every action |
| C57 | `apply` with queries that are paths of names | such an overlay is an edit of the entry the path leads to, up to addresses; edits at unrelated paths commute; permutations by adjacent swaps |
| C58 | the same | the edit applied to its own result, per action; for replace also after `inject_main` |
| C59 | `decodeInstructions` | a relation between nodes and settings (`Spec/Decode`), proved equivalent to the decoder: per struct, field by field, by induction over the entries |
| C60,C61,C62 | the same | from the relation |
| C63 | `DOverlay.apply`, `DFile.queue`, `expandLoopN` | crashes on null items => partial; agreement with the plain model without nulls, exact conditions for the crashes; carried through the goroutines (C47) and the process (C66_null_file, C66_null_overlay) |
| C64 | `adHocOverlay` | the flags against the same keys in a file; partial: an empty or null query is accepted and crashes on every document with content (`DOverlay.usesNilPath`) |
| C65 | `decodeInstructions`, `adHocOverlay`, `Setup.getInstructions`, `Setup.run` | pointers stand for the values described by the file and flags (decoding is a function), then C55; a layout in memory is constructed for every task |
| C66 | `Machine.Ends`: start, instructions, loading, any run | each way to end, with C46 (configuration), C59, C65; existence from the progress measure of C49 |
| C67 | effects (create, append, print) of the outputs, their text in arbitrary pieces, any prefix | the disk after a list of effects by induction; every output of a reachable state is a result (C65) |
| C68 | `Machine.instructionsText`, `Templates.render` | unfolding to the documented text, with C45; counterexamples for Sprig and standard input |
| C69 | `Machine.setup`, `Machine.startFails` | C46 for every setting; case analysis of `Ends` |
| C70 | `envCommand` for every iteration order | C46 |
| C71 | anchors and aliases in text order (`Spec/Anchors`) | sublist through every action, induction on overlays; exactness of fitting merges by induction on the value; witnesses for dangling aliases => partial |
| C72 | injection at a list of paths (`Spec/InjectMany`) | merging the joined scaffoldings = adding them one by one (induction on paths, `Fits`), unrelated updates commute, address counts through the replacements |
| C73 | programs of single memory accesses (`Model/Steps`, generated by `tools/steps.py` from the heap model), shared memory with pointers, all interleavings | each program simulates the heap function (`Sim`) and keeps to its part of memory (`Turf`); invariant over interleavings: every goroutine sees the memory of its own solo run; well-foundedness by multisets of programs |
| C74 | `Machine.setup`, `Task.contents`, `Task.nameFor` (`Props/Inputs`) | unfolding over the expanded entries; what is left on standard input after other readers is a parameter |
| C75 | `apply`, `findAll` with the search of the query library from its documentation (`Spec/JsonPath: findSteps`; names, `*`, indices, slices, unions, keys `~`, filters as predicates, `..`) | what is found = what is selected, told by routes of edges (induction over steps); routes are unique by distinct addresses; then `C13`, `C10`, `C16`, `C17` translated from addresses to routes; edits at disjoint addresses are independent |
| C76 | `called`, `Machine.given`, `Machine.EndsOn` (`Model/Args`): the flags of flags.go, cobra's and pflag's reading of the arguments from their documentation | spellings as an inductive relation (`Spec/Args: Spelled, Line`), induction over the line; equality of the machines given by lines with the same values per flag; refusals by computing the parser on what follows a good line |
| C77 | no new model; validity of a tree is `Spec/Valid: ValidDocument` | an invariant with a condition on keys (`Lemmas/Valid: GN, Keeps`) kept by every edit at an address that is no key; the addresses of matches are those of values; fold over matches, overlays, documents; counterexamples by evaluation for each condition |
| C78 | `Machine.command`, `runCommand`, `parseSub` (`Model/Commands`): env.go and completion.go with cobra's `Find` and `execute` for them | computing the parser of a command that only has `--help` on words and on lines of the main command's flags; what `env` prints is C70's |
| C79 | `copyG`, `replaceG`, `addNodeG` (`Model/Graph`): nodes with children and alias pointers, recursion bounded by a stack size | ending iff there is no circle: walks as long as the stack for the one direction, well-foundedness of reachability in finite memory for the other; views to every depth for the copies; texts and comments: each part of a copy has a region of memory of its own (`Laid`); a circular value => partial |
| C80 | `checkQueries` | from C19; a document with two matches => partial |
| C81 | `Search.find`, `Search.start`: viper's `findConfigFile` over the three directories, on `Start` and `initConfig` | Go's path cleaning on the three directories; first match in the concatenated list; then C46; a file with an extension => partial |
| C82 | `apply` of the tree model | C18 and C26 for deletes and combines; counterexample |
| C83 | key steps of `Spec/JsonPath`, relation `DocKeyChanged` (`Spec/Keys`) | `EditedDoc` of C75 for the query `path.key~` is the change of one key; induction on the path |
| C84 | data-level deep merge with templates `fillMerge` (`Spec/Fill`) | refinement by induction on the overlay's value, as for C01; invariant: the texts of the document are good (no `%`; or no marker), closed under filling in good templates (`Tame`; `Spaced`), proved once for any such pair (`Filling`) |
| C85 | `Repeatable` overlays, `Alike` documents (`Spec/Again`, `Spec/Alike`); `Task.FileResult` and `rendering` for the text | invariant: after an overlay at a path of names nothing is left for it to do, and overlays and injections at unrelated paths do not change what it finds; overlays are insensitive to styles (logical relation through merge and replace) |
| C86 | `Model/Log`: the messages of each step of `Model/Execute` (`LStep`, `Logged`), go-logging levels; `announcement`, `about` (`Spec/Log`) | invariant of the labelled transition system: a worker has announced exactly the workloads it took from its stream, the last one being the one it fails on |
| C87 | `applyMsgs` (`Model/Log`) against `Qualifies`, `Matches`, `Injects`, `PlainPath` | which messages are in the list, by cases; the announcements are a prefix of the matches by induction |
| C88 | `formatWarnings` (`Model/Log`) against `parse` (`Spec/Text`) | the matches are the pieces; without warnings the substitutions of both engines agree |
| C89 | two `Task`s/`Setup`s related by `SameFor` (`Spec/Local`) | contents and `overlaysOn` of the file are equal; then C65 for both runs |
| C90 | `applyAll` on documents against `applyAll` of `within` (`Spec/LastWord`) on the value alone | overlays at name paths are edits (`docEdit`); an edit at an extended path is an edit of what is found there |
| C91 | `Model/Arrays` against `Model/HeapApply` | simulation, function by function, under the invariant that no two nodes share an array; the loop of `DeleteNode` reads its array while calls below it write others: the nodes being searched are kept, or the search is circular and never ends |
| C92 | `applyItems` on documents, comments of all nodes (`Spec/Sources`) | one statement about single nodes that every edit keeps, at the node and below it (`Passes`, `KeepsTo` in `Lemmas/Sources`), by induction over values, documents and overlays |
| C93 | the same for the texts; `TextFrom` says what may come up | the same machinery with another statement; combine adds a case |
| C94 | `apply` with any queries that find nodes of the document; `howOften`, `Found`, `times` in `Spec/Overlap` | the induction of C75_each with a count in place of "once" (`edit_again`, `edit_all` in `Lemmas/Overlap`); replace and delete through the set of places (`installAt`, C13) |
| C95 | `compareG` (`Model/Compare`): go-cmp on nodes with alias pointers and its record of pointer pairs | it ends: fewer unmet nodes at each step; yes means same: induction on the depth looked at, with the pairs on the path; acyclic: nothing on the path can be met again; trees: sizes |
| C96 | `mergeNode`, `apply`, `getValues` | deep merge (C01) is associative unless the middle value comes between (`Between`): induction on the third value; entries put one by one, those with other keys commute; then paths of names and C45 |
| C97 | `queueOverlays`, `checkDocumentIndex`, `addCommonOverlays` | the list of overlays that reaches a document is the same, documentIndex aside, which the worker does not look at (Props/Scoping) |
| C98 | `Apply`, `doAction`, `Queries.Find` | acting on an address is editing at the path, as long as the address lies in the document once; edits at unrelated paths keep that so (counting addresses); both sides are then the same list of edits (Props/Split) |
| C99 | the process (Model/Process), `expandDirectories`, `ReadStream` | the loop that expands directories looks only at paths it was given or has found; what it returns is read at those paths only; every way of ending carries over (Props/Concern) |
| C100 | the process, `locate`, `dirOf`, `pathJoin` | the directory that relative paths are resolved against is that of the instructions, so every path looked at is absolute, and absolute names are located without the working directory; then as C99 (Props/Cwd) |
| C101 | `ReadInstructionFile`, `renderInstructionsTemplate`, `ReadStream`, the process | the text of the instructions and the directory of the name are all that the process depends on; every way of ending carries over (Props/Whence) |

## 3. Trusted base

Lean 4.33.0 kernel; axioms at most `propext`, `Classical.choice`, `Quot.sound`
(checked with `#print axioms` for every property theorem). `decide +kernel` is used
for a few concrete examples only; it is checked by the kernel and adds no axiom. The
correspondence between model and Go code is by reading: every definition cites file
and lines. As evidence for it, `Check/RepoTests` transcribes the repository's own unit
tests (their inputs, given as nodes, and what they expect) and `Check/DocExamples` the worked
examples of the documentation; the model agrees with all of them. These are tests of the model,
not proofs, and no claim rests on them.

## 4. What is modelled and what is not

Modelled, function by function (the definition's comment names the lines):

* `internal/actions`: all of `merge.go`, `replace.go`, `delete.go`, `combine.go`,
  `format.go`, `markers.go`, `style.go`, `action.go` except `MarshalYAML`/flag
  boilerplate. Twice: on trees (`Model/Actions`, `Model/Format`) and on a heap of
  mutable nodes (`Model/Heap`); `Props/Heap` proves that they agree.
* `internal/builder`: `lexer.go`, `path.go` (the closures are represented by the
  tree they build; on the heap each allocates it anew, and they are merged there).
* `internal/overlays`: `overlay.go`, `onmissing.go`, `query.go: Find/Paths/String`,
  `documentquery.go`, `workstream.go`. On trees (`Model/Overlay`, `Model/File`) and
  on the heap (`Model/HeapApply`), and as programs of single memory accesses
  (`Model/Steps`).
* `internal/instructions`: `execute.go`, `yamlfile.go`, `document.go`, `config.go`,
  `values.go: getValues`, `utils.go`, and the parts of `instructions.go` that merge
  overlays, expand directories and compute output paths.
* `internal/commands`: `root.go`, `env.go`, `completion.go`, `flags.go`: settings as a
  lookup order, the flags and the reading of the arguments (`Model/Args`, `Model/Commands`),
  and with `template.go` and `cmd/yot/main.go` the process as a whole
  (`Model/Process`): its exit status and what it does to files.

Not modelled:

* yaml.v3 parsing and encoding (the encoder is a parameter; decoding nodes into the
  tool's structs is modelled, from knowledge of the library, without aliases outside
  `value` and without merge keys), `yaml.Node.Alias`
  targets (only whether a node is an alias; `Model/Graph` has them for the copying of
  values, C79; `Model/Compare` for the comparison of documentQuery values, C95), yaml-jsonpath evaluation (a parameter;
  paths of child names have a definition, `Spec.findNames`), the sed engine (a
  parameter), the template engine (a parameter), cobra/viper internals beyond
  the parsing of arguments, the lookup of settings and the search for the file, the wording of log lines and
  those of `root.go:150`, `instructions.go:76`, `utils.go:31` and `config.go:113` (`Model/Log` has the others), the
  file system beyond `stat`/`walk`/write, the completion scripts and help texts
  (parameters), the commands `help` and `__complete`, `docs.go` (only the texts of the help).
* Go's weak memory model: memory is sequentially consistent. In `Model/Execute`
  overlays are applied in atomic steps; `Model/Steps` has every access of a node or
  of `OnMissing.Action` as a step of its own, and C73 shows that this makes no
  difference.
* Stack and memory exhaustion.

Simplifications that matter:

* Tree model: nodes are named by addresses; a new node has address 0 and documents
  are relabelled between workloads. `C53_*` shows that this agrees with pointers.
* An error drops the partially edited document; the tool never renders a failed
  file (C49). In the heap model the memory after an error is kept.
* Heap model: `Content` is the list of pointers; `Model/Arrays` has the slices, and C91
  shows that they agree. Recursion is bounded by fuel, and theorems hold for all large enough fuel.
* Settings are texts, booleans, integers, lists of texts or something else (`CVal`): floating
  point numbers and dates in the configuration file are not represented; null counts as absent.
* Nil pointers (null items of lists, queries of the command line without a path) are
  in the tree model of the run and of the process; `Model/Steps` and the heap model have
  none. Instructions that are refused and list a null file may also crash
  (`instructionsFailCrash`): the order of decoding and listing inside one run is
  over-approximated.
