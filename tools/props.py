#!/usr/bin/env python3
# Generates /verif/properties.jsonl (one JSON object per line).
import json, os
P = []
def p(title, statement, quantifier, why, anchors):
    P.append(dict(id="C%02d" % (len(P)+1), title=title, statement=statement,
                  quantifier=quantifier, why_tests_cant=why, anchors=anchors))

# ---------------------------------------------------------------- merge
p("merge is a deep merge on plain data",
  "Merging an overlay value that contains no format markers and no aliases into a node yields exactly the recursive deep merge of the two as plain YAML data: a scalar replaces, a sequence is appended to a sequence (or replaces a non-sequence), and a mapping is merged key by key, with keys the target lacks appended in overlay order.",
  "all target trees and all marker-free, alias-free overlay trees, of any depth and width",
  "the tree shapes and depths are unbounded; tests fix three or four overlays against one Service manifest",
  ["internal/actions/merge.go: MergeNode, merge, mergeMap, mergeArray, mergeScalar, addNode"])
p("merge leaves unmentioned keys untouched",
  "When a mapping without marker keys is merged into a mapping, every entry whose key the overlay does not mention keeps its key node and value node bit for bit (data, comments, style, position relative to the other original entries), and no original key disappears.",
  "all mappings, all overlay mappings without marker keys, all keys not mentioned",
  "a frame property over all unmentioned keys of every tree",
  ["internal/actions/merge.go: mergeMap"])
p("re-applying a merge changes nothing",
  "Applying the same marker-free merge overlay that contains no sequence twice gives the same tree (data, comments, tags, order) as applying it once, so re-running yot on its own output is stable.",
  "all target trees, all marker-free, sequence-free, alias-free overlay values without duplicate keys",
  "idempotence over all pairs of trees",
  ["internal/actions/merge.go: merge, mergeMap, mergeComments"])
p("merging a sequence appends copies in order",
  "Merging a sequence into a sequence keeps all existing elements unchanged and in place and appends the overlay's elements, in order, as exact copies when they contain no markers; merging into a non-sequence yields just the overlay's elements.",
  "all sequences, all overlay sequences",
  "unbounded lengths and element shapes",
  ["internal/actions/merge.go: mergeArray, addNode", "internal/actions/format.go: sanitizeNode"])
p("a marker key in a merge applies to every entry",
  "If an overlay mapping key contains a format marker and the target mapping is not empty, the overlay entry is applied to every entry of the target and adds none: the number and order of entries is preserved, and each key becomes the overlay key with its markers substituted from that entry's own original key and value.",
  "all target mappings and all overlay keys with markers",
  "must hold for every number of entries and every key text",
  ["internal/actions/merge.go: mergeMap", "internal/actions/markers.go: checkForMarkers"])
p("format markers are replaced by the original text",
  "In an overlay scalar, each %v, %k, %l, %h, %f is replaced by the original value, key, line, head or foot comment respectively, and the text between markers is kept literally; a scalar without markers is stored verbatim.",
  "all templates and all original values and comments",
  "all strings; the substitution runs on a string that is being rewritten, so interference between inserted text and later markers only shows on special inputs",
  ["internal/actions/format.go: format, doFormat, sanitizeValues", "internal/actions/merge.go: mergeScalar"])
p("a sed command after a marker is applied to the original text only",
  "A marker followed by {cmd} is replaced by the result of running cmd on the corresponding original text with one leading and one trailing newline dropped; if cmd does not parse as a sed program the original text is used and the run continues; the literal text around it is kept.",
  "all templates with commands, all commands, all sed implementations",
  "arbitrary commands and values",
  ["internal/actions/format.go: doFormat, processSedCommand"])
p("inserted nodes carry no unexpanded markers",
  "When merge has to add a node because the target lacks the key, or to append to a sequence, the value and comments of every node in the inserted copy are the overlay's with all markers removed; text without markers is inserted verbatim.",
  "all overlay trees",
  "all strings in all tree positions",
  ["internal/actions/merge.go: addNode", "internal/actions/format.go: sanitizeNode"])
p("comments survive unless the overlay supplies that comment",
  "For merge, replace and combine, each of the head, line and foot comment of a matched node stays as it was unless the overlay value carries a comment of that same kind, in which case it becomes the overlay's (with markers substituted).",
  "all nodes, overlay values and comment texts, per comment kind",
  "2^6 presence combinations times all texts; the implementation uses switch/fallthrough so kinds interfere",
  ["internal/actions/merge.go: mergeComments", "internal/actions/replace.go: ReplaceNode", "internal/actions/combine.go: CombineNode"])
# ---------------------------------------------------------------- replace
p("replace installs exactly the overlay value",
  "After a replace the matched node has the overlay value's kind, tag, text, style, anchor and children, with nothing of the old content left, and the rest of the document is unchanged.",
  "all documents, match positions and overlay values",
  "all tree shapes and match positions",
  ["internal/actions/replace.go: ReplaceNode", "internal/overlays/overlay.go: doAction"])
# ---------------------------------------------------------------- delete
p("delete removes exactly the matched node",
  "Deleting a match removes exactly that node: a matched mapping value or key goes together with its partner, a matched sequence element or document root goes alone; every other node keeps its content and relative order.",
  "all documents and all match positions (value, key, element, root) at any depth",
  "all depths and positions; index arithmetic on key/value pairs",
  ["internal/actions/delete.go: DeleteNode"])
p("delete keeps the document well formed",
  "After any sequence of deletes every mapping in the document still has an even number of children, so keys stay paired with values, and no out-of-range index is ever computed.",
  "all well-formed documents and all sequences of match lists",
  "index arithmetic must be in range for every position and every history",
  ["internal/actions/delete.go: DeleteNode", "internal/overlays/overlay.go: doAction"])
p("deleting a set of matches does not depend on match order or duplicates",
  "When a delete overlay matches several nodes (possibly nested in each other or listed twice by different queries), the outcome is the document without those nodes, whatever the order of the matches; a match already gone with its parent is a no-op.",
  "all documents, all match lists and their permutations",
  "all overlap patterns between matches",
  ["internal/actions/delete.go: DeleteNode", "internal/overlays/overlay.go: doAction"])
# ---------------------------------------------------------------- combine
p("combine adds integers",
  "Combining an integer node with an integer overlay value yields the decimal text of their sum; text Go cannot read as a decimal int is an error and nothing is emitted for the file.",
  "all integers",
  "all pairs of 64-bit integers including the ends of the range",
  ["internal/actions/combine.go: CombineNode"])
p("combine of booleans and strings",
  "Combining boolean nodes yields their logical conjunction in canonical spelling for every accepted spelling of the operands, and combining any other scalar yields concatenation, original first.",
  "all scalar nodes and overlay scalars",
  "all texts",
  ["internal/actions/combine.go: CombineNode"])
p("combine touches only the text and comments of scalars",
  "Combine fails unless both sides are scalars, and on success changes nothing of the matched node but its text and comments; nothing else in the document changes.",
  "all nodes and overlay values",
  "all kinds and tags",
  ["internal/actions/combine.go: CombineNode"])
# ---------------------------------------------------------------- apply
p("an overlay edits only inside its matches",
  "Applying merge, replace or combine to a document changes nothing outside the subtrees rooted at the query's matches: every node not below a match keeps its own fields and its children's count and order.",
  "all documents, all match lists, all three actions",
  "all tree shapes and match sets",
  ["internal/overlays/overlay.go: Apply, doAction"])
p("an overlay that does not qualify changes nothing",
  "If the documentQuery does not hold for a document, or the query matches nothing and the effective onMissing action is not inject, the document is left exactly as it was and no error is reported.",
  "all overlays, documents and configurations",
  "all documents and query results",
  ["internal/overlays/overlay.go: Apply", "internal/overlays/onmissing.go: onMissing"])
p("documentQuery is an OR of ANDs",
  "An overlay with documentQuery groups applies iff some group has all its conditions satisfied; a condition without value is satisfied iff its query matches something, and one with value iff it matches something and every match equals the value ignoring comments, position and style; no groups means it applies.",
  "all group lists, condition lists, documents and query results",
  "all nestings of groups and conditions, including empty ones",
  ["internal/overlays/documentquery.go: checkQueries, checkQuery"])
p("documentQuery equality ignores presentation only",
  "Two nodes compare equal in a documentQuery iff they have the same kinds, tags, texts, anchors and children recursively; in particular an empty mapping in a document equals the value {} in a condition whatever edits led to it.",
  "all pairs of trees",
  "all tree pairs and edit histories",
  ["internal/overlays/documentquery.go: checkQuery"])
p("documentIndex selects documents",
  "A file-level or common overlay is applied to document i iff it has no documentIndex or documentIndex contains i; an overlay listed under documents with path k is applied to document k and no other.",
  "all files, documents and index lists",
  "all index lists and document counts",
  ["internal/overlays/overlay.go: CheckDocumentIndex", "internal/instructions/document.go: checkDocumentIndex", "internal/instructions/yamlfile.go: queueOverlays"])
p("overlays are applied in the documented order",
  "For each document the overlays are applied strictly in this order: common overlays, the file's own overlays, then the document-specific overlays, each list in the order written, each overlay seeing the result of all previous ones.",
  "all instruction sets and files",
  "all lists",
  ["internal/instructions/yamlfile.go: queueOverlays", "internal/instructions/instructions.go: addCommonOverlays"])
p("documents of a file are independent",
  "The outcome for one document of a multi-document file depends only on that document, its index and the overlays, not on the other documents.",
  "all files with any number of documents",
  "all combinations of sibling documents",
  ["internal/instructions/yamlfile.go: queueOverlays", "internal/overlays/workstream.go: StartHandler"])
p("action names are parsed case-insensitively and default to merge",
  "An overlay's action is accepted iff it is merge, replace, delete or combine in any letter case, any other text is an error; an overlay with no action behaves as merge; writing an action back gives the canonical lower-case name, which parses to the same action.",
  "all action texts",
  "all strings",
  ["internal/actions/action.go: UnmarshalYAML, String", "internal/overlays/overlay.go: UnmarshalYAML, doAction"])
# ---------------------------------------------------------------- onMissing / builder
p("onMissing defaults come from the configuration",
  "The effective onMissing action is inject iff the overlay says inject, or says nothing (or default, or an unknown word) and the configured default is inject in any letter case; an explicit ignore is never overridden, and the answer is the same each time the overlay is used.",
  "all overlay settings, configured defaults and histories of use",
  "shared overlay objects are mutated on first use, so the history matters",
  ["internal/overlays/onmissing.go: onMissing", "internal/actions/action.go: OnMissingAction.UnmarshalYAML"])
p("inject creates the queried path and stores the value there",
  "When a dotted query matches nothing and inject is in effect, afterwards the query matches exactly one node and that node holds the overlay's value.",
  "all documents, all dotted paths of plain names, all overlay values",
  "all depths, all partial overlaps between path and document",
  ["internal/overlays/onmissing.go: handleInjectPath, doInjectPath", "internal/builder/path.go: BuildPaths"])
p("inject does not disturb the rest of the document",
  "Injecting at a dotted path leaves every mapping entry off that path unchanged and in order, at every level; a value on the path that is not a mapping is replaced by one.",
  "all documents and dotted paths",
  "all shapes of existing content",
  ["internal/overlays/onmissing.go: doInjectPath"])
p("queries that are not plain paths fall back to injectPath",
  "If the query is not a plain dotted/bracketed path, inject uses injectPath when given and otherwise leaves the document unchanged without error; the fallback is taken for every such query.",
  "all query strings",
  "all strings; relies on which error the path builder returns",
  ["internal/overlays/onmissing.go: handleInjectPath", "internal/builder/path.go: newPath"])
p("the path builder rejects everything that is not a plain path",
  "Building a path succeeds only for plain paths: any path with a wildcard, recursive descent, array subscript, filter or property-name operator outside quotes is rejected with an invalid-path-syntax error, never accepted with a different meaning.",
  "all path strings",
  "all strings",
  ["internal/builder/lexer.go: lexSubPath, handleChild, handleBracket", "internal/builder/path.go: newPath, childThen"])
p("dotted names build nested mappings",
  "For names without special characters, n1.n2...nk (with or without a leading $.) builds exactly a document holding nested single-key mappings n1..nk with an empty leaf.",
  "all non-empty lists of plain names",
  "all lengths and names",
  ["internal/builder/path.go: NewPath, childThen", "internal/builder/lexer.go"])
p("bracket quoting can express names with special characters",
  "For a key name written as ['...'] with quote and backslash escaped, the path builder builds exactly the key with that name, whatever characters it contains.",
  "all key names",
  "all strings incl. quotes, commas, backslashes, brackets",
  ["internal/builder/path.go: bracketChildNames, balanced, unescape", "internal/builder/lexer.go: handleBracket, consumedEscapedString"])
p("the path lexer is lossless and always finishes",
  "Lexing any input terminates, never blocks on its two-slot channel and never panics; when it succeeds, the tokens' texts concatenate to the whole input, so no part of a path is silently ignored.",
  "all inputs",
  "all strings; goroutine/channel capacity argument",
  ["internal/builder/lexer.go: nextLexeme, emit, lexPath, lexSubPath, enquote"])
p("applying an overlay never crashes",
  "Applying any decoded overlay to any decoded document returns normally, with or without an error.",
  "all overlays, documents and histories",
  "crash needs particular combinations of features",
  ["internal/overlays/overlay.go: Apply", "internal/builder/path.go: BuildPaths", "internal/actions/merge.go: mergeDocument"])
# ---------------------------------------------------------------- instructions
p("every file gets the common overlays followed by its own",
  "After reading instructions, each file's overlay list is the common overlays (including one given on the command line) followed by exactly that file's own overlays.",
  "all instruction sets, any number of files and overlays, with or without command-line overlay",
  "depends on slice capacity left by earlier appends, i.e. on counts",
  ["internal/instructions/instructions.go: addCommonOverlays", "internal/instructions/config.go: ReadAdHocOverlays"])
p("duplicate file entries are merged into one",
  "After reading instructions each path is listed once, at its first position, with the overlays and document overlays of all its entries concatenated in order and with the last outputPath given.",
  "all lists of file entries",
  "all duplication patterns; in-place deletion while iterating",
  ["internal/instructions/yamlfile.go: mergeDuplicates"])
p("a directory entry stands for the YAML files below it",
  "An entry naming a directory is replaced by one entry per .yaml/.yml file below it, each with that entry's overlays; other entries keep their order; expansion always finishes.",
  "all entry lists and file systems",
  "all directory layouts, incl. symbolic links",
  ["internal/instructions/yamlfile.go: expandDirectories", "internal/instructions/utils.go: getFileNames"])
p("distinct inputs go to distinct outputs",
  "Two different input files without outputPath are never written to the same output file.",
  "all sets of input paths",
  "all path sets",
  ["internal/instructions/instructions.go: setOutputPath", "internal/instructions/utils.go: GetCommonPrefix", "internal/instructions/config.go: openOutputFile"])
p("outputs stay inside the output directory",
  "Without an absolute outputPath, every output file is inside the output directory; in particular no input file is overwritten.",
  "all sets of input paths",
  "all path sets",
  ["internal/instructions/instructions.go: setOutputPath", "internal/instructions/config.go: openOutputFile"])
p("the common prefix is the longest shared directory",
  "For absolute clean paths the prefix removed from output paths is exactly the longest directory prefix common to all of them.",
  "all sets of two or more absolute clean paths",
  "all path sets",
  ["internal/instructions/utils.go: GetCommonPrefix"])
p("outputPath rules",
  "An explicit outputPath with an extension is used as is; one without an extension is a directory in which the input's base name is kept; without outputPath the input path relative to the common directory is used.",
  "all outputPath and path texts",
  "all strings",
  ["internal/instructions/instructions.go: setOutputPath"])
p("remove-comments removes every comment",
  "With remove-comments, no comment of the source documents is left anywhere before overlays are applied, and nothing but comments is removed.",
  "all documents",
  "all comment positions",
  ["internal/instructions/yamlfile.go: removeCommentsFromNode", "internal/instructions/instructions.go: GetInstructions"])
p("emptied documents and files are omitted",
  "A document whose root was deleted is omitted from the output, the remaining documents keep their order, and a file all of whose documents were deleted is not written at all.",
  "all files and overlay outcomes",
  "all deletion patterns",
  ["internal/instructions/config.go: encodeNodes, doPostProcessing"])
p("output style applies uniformly",
  "On output every node of a document gets the configured style, which is the set of the listed styles: order and repetition in the list do not matter.",
  "all documents and style lists",
  "all lists and trees",
  ["internal/actions/style.go: SetStyle, setStyle, GetStyle", "internal/instructions/config.go: encodeNodes"])
p("style names round-trip through the configuration",
  "Any list of styles rendered as its bracketed comma-separated canonical names, in any letter case, is read back as the same list; every documented abbreviation stands for its style; other names are ignored.",
  "all lists of styles",
  "all lists",
  ["internal/actions/style.go: GetStyleFromConfig, String"])
p("later values files win",
  "The values used for templating are the deep merge of the values files in command-line order: at every key path the last file that has a scalar there decides, lists under the same key are concatenated, and keys only in earlier files are kept.",
  "all lists of values files with mappings",
  "all lists of trees",
  ["internal/instructions/values.go: getValues", "internal/actions/merge.go: MergeNode"])
p("configuration precedence",
  "A setting's value is the command-line flag if given, else its documented YOT_ environment variable if set, else the configuration file's value, else the default.",
  "all settings and all combinations of sources",
  "all combinations",
  ["internal/commands/root.go: initConfig", "internal/commands/env.go: envMap", "internal/commands/flags.go"])
# ---------------------------------------------------------------- concurrency
p("a run always finishes",
  "For every number of files and every scheduling of the worker goroutines, the run reaches completion: no deadlock, no send on a closed channel, no endless execution, even when overlays or writing fail.",
  "all file counts, outcomes and schedules",
  "all interleavings",
  ["internal/instructions/execute.go: Execute, PostProcessHandler", "internal/overlays/workstream.go", "internal/instructions/yamlfile.go: queueOverlays"])
p("a successful run writes every file exactly once",
  "If no overlay fails and no write fails then under every schedule the run succeeds, each file is rendered exactly once, with exactly the documents obtained by applying its overlays in order.",
  "all files, overlays and schedules",
  "all interleavings",
  ["internal/instructions/execute.go: Execute", "internal/overlays/workstream.go: StartHandler"])
p("a failing file is reported and never written",
  "If applying overlays to a file fails, the run reports an error and under no schedule is anything rendered for that file.",
  "all failures and schedules",
  "all interleavings of failure and output",
  ["internal/instructions/execute.go: Execute"])
p("the result does not depend on scheduling",
  "For successful runs with distinct output paths, the contents of all output files are the same under every schedule, although all files share the common overlay objects.",
  "all schedules",
  "all interleavings; overlay objects are shared and mutated",
  ["internal/instructions/execute.go: Execute", "internal/overlays/onmissing.go: onMissing"])
p("the output order on stdout follows the instructions",
  "With stdout output, files are printed in the order in which they are listed.",
  "all schedules",
  "all interleavings",
  ["internal/instructions/execute.go: Execute"])
p("applying an overlay never modifies the overlay",
  "Applying an overlay to a document leaves the overlay's value unchanged and makes the document share no node with it, so the same overlay gives the same result on every document and later edits of one document cannot leak into another.",
  "all heaps, documents and overlay values",
  "aliasing over all heap shapes and histories",
  ["internal/actions/merge.go: addNode", "internal/actions/replace.go: ReplaceNode"])
p("node edits implement the tree semantics",
  "The pointer-level edits (merge, replace, delete, comment removal) performed on a document's node graph have exactly the effect of the corresponding functional tree edits, whatever the addresses, provided the document is a tree disjoint from the overlay value.",
  "all heaps that represent a document and an overlay value",
  "all heap layouts",
  ["internal/actions/merge.go", "internal/actions/delete.go", "internal/actions/replace.go"])
p("the style flag takes the documented names",
  "--output-style accepts exactly the documented names and abbreviations of the styles, in any letter case and separated by commas, and whatever it accepts reaches the renderer as those styles, in that order.",
  "all flag values",
  "all texts given on the command line",
  ["internal/actions/style.go: FlagMap, GetStyleFromConfig", "internal/commands/flags.go: initializeFormatFlags"])
p("a run does what the instructions say, end to end",
  "From the settings, the instructions file and the files named by it and by --path: the inputs are the listed files and those in the listed directories, each once; each document of each input goes through the common overlays, the overlay of the command line, the overlays of its entries in order (all of them exactly if none are lost as C34 describes, else what is left) and those under documents, skipping those whose documentIndex excludes it; the results are rendered once under their output names. If everything exists, applies and can be written, the run succeeds under every schedule; if something cannot be read it fails before writing anything, unless listing the files never ends (C36). A crash comes from a null list item, an overlay or the rendering of an input.",
  "all instructions, file systems, contents, settings and schedules",
  "composition of all stages for all inputs and interleavings",
  ["internal/instructions/instructions.go: GetInstructions", "internal/instructions/config.go: ReadAdHocPaths, ReadAdHocOverlays", "internal/instructions/yamlfile.go: UnmarshalYAML, mergeDuplicates, queueOverlays", "internal/instructions/execute.go: Execute"])
p("an overlay fails only for the documented reasons",
  "Replace and delete never fail on a match. Merge fails only because of an alias in its value, exactly when going down by the same names the target has a node where the value has the alias. Combine fails only on nodes that cannot be combined. Injecting fails only if neither the query nor the injectPath is a plain path. Any other overlay applies to every document.",
  "all overlays, documents, values and marker substitutions",
  "the absence of other failures is a claim about all inputs",
  ["internal/actions/merge.go: merge, mergeMap", "internal/actions/combine.go: CombineNode", "internal/overlays/onmissing.go: handleInjectPath", "internal/overlays/overlay.go: Apply"])
p("overlays at unrelated paths can be listed in any order",
  "If no path of one overlay leads to or into what the path of another leads to, the overlays give the same document in whatever order they are listed, and fail or succeed together (merge, replace, combine and delete; nothing injected, no documentQuery).",
  "all lists of overlays at paths of names, all permutations, all documents",
  "all permutations of lists of any length and all documents",
  ["internal/overlays/overlay.go: Apply, doAction", "internal/overlays/workstream.go: StartHandler", "internal/actions/delete.go: DeleteNode"])
p("repeating an overlay changes nothing",
  "Applying a replace overlay, a delete overlay or a merge overlay whose value has no lists and no markers a second time leaves the document as it is; for replace also when the first time injected the path.",
  "all overlays at paths of names and all documents (for delete: without repeated keys)",
  "a relation between runs for all inputs",
  ["internal/overlays/overlay.go: Apply", "internal/overlays/onmissing.go: doInjectPath", "internal/actions/replace.go: ReplaceNode", "internal/actions/merge.go: merge"])
p("an instructions file means what its keys say",
  "Reading an instructions file gives exactly the overlays, documents and files that its keys describe, each setting decided by its own key alone; it succeeds whenever the keys describe something. The order of keys and unknown keys are irrelevant.",
  "all parsed instructions files",
  "all node trees of any depth and width",
  ["internal/instructions/instructions.go: ReadInstructionFile, Instructions", "internal/instructions/yamlfile.go: YamlFile, UnmarshalYAML", "internal/overlays/overlay.go: Overlay, UnmarshalYAML", "internal/overlays/query.go: UnmarshalYAML"])
p("omitted settings have their documented defaults",
  "An overlay without action merges; without documentIndex it is for all documents, with an empty list for none; writing null for a setting is the same as leaving it out, except for value, where null is the value.",
  "all overlays of all instructions files",
  "all files",
  ["internal/overlays/overlay.go: UnmarshalYAML, CheckDocumentIndex, doAction"])
p("a query may be a text or a list",
  "A query written as a text means the same as a list of that one query; a list means its items in order.",
  "all query settings",
  "all values",
  ["internal/overlays/query.go: Queries.UnmarshalYAML, Query.UnmarshalYAML"])
p("malformed instructions are refused",
  "A repeated key, an unknown action, a query that is no path, a setting of the wrong kind anywhere in a list makes the whole instructions file an error: nothing of it is applied.",
  "all malformed settings at all places",
  "all files",
  ["internal/actions/action.go: UnmarshalYAML", "internal/overlays/overlay.go: UnmarshalYAML", "internal/instructions/instructions.go: ReadInstructionFile"])
p("empty list items do not crash the tool",
  "An instructions file with an empty (null) item in one of its lists is either refused or the item is ignored; without such items the lists are processed as written.",
  "all instructions files, file systems and documents",
  "all positions of such items in all lists",
  ["internal/instructions/yamlfile.go: expandDirectories, queueOverlays", "internal/overlays/documentquery.go: checkQueries", "internal/overlays/workstream.go: StartHandler"])
p("the command line overlay is an overlay like any other",
  "The overlay given by --query, --action and --value is the overlay that the same texts give in an instructions file, but for its name: same matches, same effect on every document, refused in the same cases; without --query nothing is added.",
  "all flag values and documents",
  "a relation between two ways of input, for all texts",
  ["internal/instructions/config.go: ReadAdHocOverlays", "internal/overlays/query.go: Queries.Set", "internal/actions/action.go: Action.Set", "internal/commands/flags.go"])
p("from the instructions file and the flags to the outputs",
  "If the instructions file lists certain files with certain overlays, common overlays, and the flags give an overlay and a path, then a run that succeeds has put every document of every listed file through exactly the overlays that the file and the flags give for it, in the documented order (those of the entries as far as not lost, C34), and written each file once under its name; an unreadable file is an error, unless listing the files never ends (C36); if all overlays apply and all writes succeed, the run succeeds; a crash comes from a null list item, an overlay or the rendering of an input.",
  "all instructions files, flags, file systems, documents and schedules",
  "composition of decoding, expansion, merging of entries, application and concurrent writing, for every schedule",
  ["internal/instructions/instructions.go: GetInstructions, ReadInstructionFile", "internal/instructions/config.go: ReadAdHocOverlays, ReadAdHocPaths", "internal/instructions/execute.go: Execute"])
p("the exit status tells whether everything was done",
  "Status 0 means that flags, configuration, instructions and all files could be read, all overlays were applied and every non-empty result was written once. If the start fails, or the instructions or any listed file cannot be read, the status is not 0 and nothing is written. If everything can be read, applied and written, the status is 0 under every schedule. A null in a list makes the status differ from 0 once it is met. The process ends, unless listing the files never ends (C36).",
  "all command lines, configurations, instructions, file systems, documents and schedules",
  "a claim about every way the process can end, under every schedule",
  ["cmd/yot/main.go: main", "internal/commands/root.go: Run, Execute, initConfig, SetupLogging", "internal/instructions/execute.go: Execute", "internal/instructions/instructions.go: GetInstructions, ReadInstructionFile"])
p("only the outputs are touched, and hold the results",
  "After a run with status 0 every input's result is in its output file (where several inputs have the same one, C37, one of their results in full), every other file is as before, and the names of the output files have been printed one per line. At any moment at which the process may be killed, each file is as before or is an output file with a beginning of its result. With --stdout no file is touched.",
  "all runs, all schedules, all moments at which the process may be stopped, all ways the system may split up writes",
  "crash points and interleavings",
  ["internal/instructions/config.go: doPostProcessing, openOutputFile, encodeNodes", "internal/instructions/execute.go: Execute"])
p("templated instructions",
  "Without values files the instructions are taken as they are. With values files the instructions file is a Go template with Sprig's functions, executed for the values merged in the order of the files; a values file or template that cannot be used is an error and nothing is written.",
  "all instructions, values files and templates",
  "all texts",
  ["internal/instructions/template.go: renderInstructionsTemplate", "internal/instructions/values.go: getValues", "internal/instructions/instructions.go: ReadInstructionFile"])
p("settings reach what they are for",
  "The documented value of each setting (flag, else variable, else configuration file, else default) is the one the run uses as output directory, style, indentation, default onMissing action, comment removal, standard output switch and log level; paths in the instructions are relative to the instructions file's directory; an invalid setting is an error and nothing is written.",
  "all command lines, environments and configuration files",
  "all combinations of sources for all settings",
  ["internal/commands/root.go: initConfig, SetupLogging", "internal/commands/flags.go", "internal/instructions/config.go: doPostProcessing, openOutputFile, encodeNodes", "internal/instructions/instructions.go: ReadInstructionFile"])
p("yot env shows the settings in effect",
  "yot env prints a line for each variable with the value that a run would use for its setting; with a name, just that line.",
  "all command lines, environments and configuration files, all map iteration orders",
  "all combinations of sources",
  ["internal/commands/env.go: env, envMap"])
p("anchors and aliases",
  "Overlays whose values have no anchors or aliases add none: the anchors and aliases of a resulting document are some of the input's, in the input's order. A merge that changes no node's kind, and every combine, keeps all of them; comment removal and output styles change none. While no anchor is removed, every alias still refers to an anchor before it.",
  "all documents, all overlays with all actions, queries and injections, any number of overlays",
  "all documents and all sequences of overlays",
  ["internal/actions/merge.go: MergeNode", "internal/actions/replace.go: ReplaceNode", "internal/actions/delete.go: DeleteNode", "internal/actions/combine.go: CombineNode", "internal/overlays/overlay.go: Apply"])
p("injection at several paths",
  "When an overlay has several queries that are paths of names, none leading into another, none of them matches and inject is in effect, then afterwards each of them matches exactly one node, which holds the value; nothing but the entries along the paths has changed; and the outcome is that of one overlay for each query, applied in order. The same holds for the paths under injectPath when they are used instead, and there also for paths that exist already.",
  "all documents, values, numbers and lengths of paths, shared prefixes",
  "any number of paths of any length sharing any prefixes",
  ["internal/overlays/overlay.go: Apply", "internal/overlays/onmissing.go: onMissing, handleInjectPath, doInjectPath", "internal/builder/path.go: NewPaths, BuildPaths", "internal/actions/merge.go: MergeNode"])
p("parallel processing is free of interference",
  "While the files are processed in parallel, however the goroutines' single reads and writes of memory are interleaved: no node is accessed by two of them at once if one writes to it, the overlays' values stay as they were read, each file is rendered as when it is processed alone, and each goroutine ends. Filling in the default onMissing action of a shared overlay is an unsynchronised write, which changes no result.",
  "all files, overlays and shared overlays; all interleavings of single memory accesses",
  "all interleavings at the finest grain",
  ["internal/instructions/execute.go: Execute", "internal/overlays/workstream.go: StartHandler", "internal/overlays/onmissing.go: onMissing", "internal/overlays/overlay.go: Apply", "internal/actions/merge.go: MergeNode", "internal/instructions/config.go: encodeNodes"])
p("inputs are what their names say",
  "The documents of an input are those in the file of that name at the start (without comments on request); with --path - the documents on standard input are an input, whose result is written as stdin.yaml in the output directory; a - under yamlFiles stands for standard input too.",
  "all machines (files, standard input, settings) and all tasks",
  "all combinations of inputs and settings",
  ["internal/instructions/yamlfile.go: readYamlFile, expandDirectories", "internal/instructions/config.go: ReadAdHocPaths", "internal/instructions/utils.go: ReadStream"])
p("queries with wildcards, indices, filters and recursive descent",
  "With queries made of names, *, indices (also negative), slices, unions, keys (~), filters and .., an overlay edits exactly the nodes whose route from the root the queries describe: delete leaves the document without the selected elements and entries, whatever the overlap of the queries; replace puts the value at every outermost selected node; merge and combine change nothing elsewhere. With queries that repeat no name or index and have at most one .. each, and whose matches are different and do not lie inside each other (always, for one query without ..), the action is done exactly once on each selected node by itself, and the overlay fails only if it fails on one of them. After deleting ..k no mapping has the key k.",
  "all documents, all queries of such steps of any length, any number of queries per overlay, all actions",
  "any depth, any number of matches, overlapping and nested matches",
  ["internal/overlays/query.go: Queries.Find", "internal/overlays/overlay.go: Apply, doAction", "internal/actions/delete.go: DeleteNode", "internal/actions/replace.go: ReplaceNode", "internal/actions/merge.go: MergeNode", "internal/actions/combine.go: CombineNode"])
p("the command line",
  "Every documented flag can be given in each of its spellings (--name=value, --name value, -n value, -nvalue, -n=value; switches as --name, -n or letters together), in any order and number; the order of different flags does not matter; of a repeated flag the last counts, while values files, queries and styles add up. What a flag says wins over the configuration file. An unknown flag or letter, a missing value, a word that is no command, or a text a flag does not take ends the process with an error before anything is read or written.",
  "all command lines, values, environments and configurations",
  "any number and order of flags, any values, any mixture of spellings",
  ["internal/commands/flags.go: initializeCommonFlags, initializeOutputFlags, initializeFormatFlags, initializeTemplateFlags, initializeInstructionFlags, initializeStdInFlags", "internal/commands/root.go: NewCommand, AddFlags, AddCommands", "internal/overlays/query.go: Queries.Set", "internal/actions/action.go: Action.Set, OnMissingAction.Set"])
p("overlays keep documents valid",
  "Applied to a valid document, any sequence of overlays leaves a valid document: every node is a mapping, sequence, scalar or alias with children that fit it and no tag of another kind, and no mapping has the same key twice; this is what is given to the encoder, also after changes of style and removal of comments. Provided that the overlay's value is given and valid, its queries find values (as all queries do that do not end in ~ or ..) and not keys, keys of a merged value contain no format markers, and injection is at paths of names.",
  "all documents, all sequences of overlays, all actions and missing actions, all inputs of a run",
  "any depth of document and value, any number of overlays and matches",
  ["internal/overlays/overlay.go: Apply, doAction, onMissing, doInjectPath", "internal/actions/merge.go: MergeNode, mergeMap", "internal/actions/merge.go: mergeArray, mergeScalar, addNode", "internal/actions/delete.go: DeleteNode", "internal/actions/replace.go: ReplaceNode", "internal/builder/path.go: NewPaths"])
p("the other commands",
  "yot env prints one line per variable, and yot env NAME that of the variable alone, with the settings a run without flags has; yot completion SHELL prints the script of one of the four shells. Neither takes any of the main command's flags, before or after its name, nor more words; what is refused ends with an error and prints nothing. --help always works. No instructions or inputs are read and no outputs written. An unreadable configuration file is an error.",
  "all command lines, environments and configurations",
  "any flags in any spelling, any words",
  ["internal/commands/env.go: EnvCommand, env", "internal/commands/completion.go: CompletionCommand, Completions", "internal/commands/root.go: AddCommands, initConfig, SetupLogging"])
p("values with anchors and aliases are copied",
  "An overlay value with anchors and aliases is installed as a copy: it looks like the value, every alias standing for a copy of what it stood for; it shares no node with the value or the rest; nothing else changes; and making the copy ends, whatever the value.",
  "all values as graphs of nodes with children and alias pointers, all memories, replaces and additions of a merge",
  "any depth and sharing, any circle of aliases",
  ["internal/actions/replace.go: ReplaceNode", "internal/actions/merge.go: addNode", "internal/actions/format.go: sanitizeNode"])
p("a condition holds if one of its matches has the value",
  "A condition with a value in a documentQuery is satisfied iff one of the results of its query has that value (as the documentation of value says).",
  "all documents and conditions",
  "any number of matches of any shape",
  ["internal/overlays/documentquery.go: checkQuery"])
p("which configuration file is used",
  "The configuration is read from the file given with --config, else the one named by YOT_CONFIG_FILE, else yot.config in the working directory, else .yot/yot.config in the home directory, else /etc/yot/yot.config; relative paths are relative to the working directory. Only that file is read: what is written in the others changes no setting, and if it is no configuration the run fails instead of trying another. Without any there are only flags and defaults. The setting configFile names the file.",
  "all machines (working and home directory, files and their contents), command lines and environments",
  "all combinations of existing files and requests",
  ["internal/commands/root.go: initConfig", "internal/commands/flags.go: initializeCommonFlags"])
p("onMissing concerns only merge and replace",
  "onMissing is for merges and replaces: a delete or combine that matches nothing leaves the document as it is.",
  "all documents, overlays with delete or combine, default settings",
  "all documents and settings",
  ["internal/overlays/overlay.go: Apply", "internal/overlays/onmissing.go: onMissing, handleInjectPath"])
p("renaming keys",
  "With a query path.key~ a replace or a merge of a text renames that one key: its text becomes the overlay's (with a merge, %v standing for the old key), of the overlay's type; the value of the entry, all other entries, their order and everything else stay. A key that is a template renames in the same way.",
  "all documents, paths, keys and texts",
  "any depth and number of entries, any text",
  ["internal/overlays/overlay.go: Apply", "internal/actions/replace.go: ReplaceNode", "internal/actions/merge.go: MergeNode, mergeMap, mergeScalar"])
p("merging templates is deep merge with the templates filled in",
  "A merge whose value has format markers anywhere is the deep merge, where each scalar's text is its template with %v standing for the text that was there and %k for the key of the entry, of the type the overlay gives (so a tag forces the type); an entry whose key is a template is merged into every entry of the target, each keeping its place; markers in what is added stand for nothing.",
  "all documents, values of any depth with templates in any scalar and key, all queries",
  "any depth and number of entries, any templates",
  ["internal/actions/merge.go: MergeNode, merge, mergeMap, mergeArray, mergeScalar, addNode", "internal/actions/format.go: format, sanitizeNode", "internal/actions/markers.go: checkForMarkers"])
p("running yot on its own output",
  "Overlays that replace, delete, or merge scalars and mappings, without format markers, at paths of names none of which leads to or into what another leads to, have the same result when run again on their result: the second run (also one that reads back what the first wrote in another style) writes the same text as the first, including where the first run had to inject what was missing.",
  "all lists of such overlays, all valid documents of any size and number, all styles",
  "any number of overlays, any documents, two whole runs; a test can only repeat the examples it has",
  ["internal/overlays/overlay.go: Apply, doAction", "internal/actions/merge.go: MergeNode", "internal/actions/replace.go: ReplaceNode", "internal/actions/delete.go: DeleteNode", "internal/overlays/onmissing.go: handleInjectPath", "internal/actions/style.go: SetStyle"])
p("the log tells what is being applied",
  "With the log level notice (or info) standard error shows, for each file, one line for each (overlay, document) pair that is handed to it, in the order of application, naming the overlay, the file and the document, whatever the other files' workers do at the same time: at each moment for a first part of the pairs, after a successful run for all of them, and when the run ends with the error of an overlay, the last line about the file names the pair that failed. With critical, error and warning none of these lines is shown; with debug all lines.",
  "all runs, all schedules of the goroutines, all moments, all log levels",
  "all interleavings of any number of workers",
  ["internal/overlays/workstream.go: StartHandler", "internal/instructions/execute.go: Execute", "internal/commands/root.go: setupLogging"])
p("the debug log explains why an overlay did nothing",
  "For one overlay on one document the debug log says that the conditions are not met exactly if the document query does not hold; that there are no results exactly if it holds and nothing is matched; that the action is ignored exactly if moreover inject is not in effect, or no path to inject at can be made; and announces the action for each match, in the order of the queries' results, up to the one that fails. After 'conditions not met' or 'ignoring' the document is unchanged; a document that changed has an announcement, or 'no results' without 'ignoring'.",
  "all overlays, documents and default settings",
  "all documents, queries and conditions",
  ["internal/overlays/overlay.go: Apply, doAction", "internal/overlays/documentquery.go: checkQueries, checkQuery", "internal/overlays/onmissing.go: onMissing, handleInjectPath"])
p("a sed command that cannot be run is reported",
  "A command in a format marker that is not a sed program, or that fails on the text it is applied to, is reported with a warning, which the default log level shows; it never stops the run. A command that is not a sed program counts as none. Without a warning the text is what the commands make of it.",
  "all texts with markers and commands, all original texts, all sed engines",
  "all templates and commands",
  ["internal/actions/format.go: doFormat, processSedCommand"])
p("what becomes of a file does not depend on the other files",
  "Adding, removing or changing other files (their entries, their overlays, their contents) changes nothing in the text that is put out for a file: it depends on the common overlays, the overlay of the command line, the entries for that file and its documents only. (Where it is put may change, with the directory all inputs share.)",
  "all pairs of instructions files and flags that agree on what concerns a file, all schedules of both runs",
  "pairs of runs over any number of files, under all schedules",
  ["internal/instructions/instructions.go: ReadInstructionFile, addCommonOverlays, mergeDuplicates", "internal/instructions/execute.go: Execute", "internal/instructions/yamlfile.go: queueOverlays"])
p("the last overlay at a path decides",
  "What a document holds at a path after a list of overlays is what the overlays at or below that path, in their order, make of what it held there; overlays at other paths change nothing there. So the last replace at a path determines exactly what is there in the end, and what the last overlay at a path deletes is not there in the end, whatever the overlays before did and whatever those after it do elsewhere.",
  "all lists of overlays at paths of names, all documents",
  "histories of any length, documents of any size",
  ["internal/overlays/overlay.go: Apply, doAction", "internal/overlays/workstream.go: StartHandler", "internal/actions/replace.go: ReplaceNode", "internal/actions/delete.go: DeleteNode", "internal/actions/merge.go: MergeNode"])
p("how lists are stored in memory never shows",
  "However the Go run-time allocates, grows and reuses the arrays behind the lists of nodes (spare room after a deletion or a growth included), the documents put out are the same: an item added to, or deleted from, one list never appears in or disappears from another, in the same document, another document, or an overlay that is used again.",
  "all documents, all overlays, all lengths of history, all growth policies of the run-time and capacities of the arrays at the start",
  "all allocation policies; in-place appends and deletions at any depth in any order",
  ["internal/actions/merge.go: addNode, mergeMap, mergeArray, mergeScalar", "internal/actions/delete.go: DeleteNode", "internal/actions/replace.go: ReplaceNode", "internal/builder/path.go: bracketChildThen"])
p("no comment appears from nowhere",
  "Every comment in a resulting document is a comment of the input document, or a comment in the value of an overlay on it, as written there or with its format markers filled in. With remove-comments the comments of the input are gone before the overlays apply, so that all comments below the document come from the instructions; if these have none, there are none.",
  "all files, all lists of overlays with any actions, queries and injections, all documents",
  "any number of overlays one after the other, on documents of any size",
  ["internal/instructions/yamlfile.go: removeCommentsFromNode", "internal/actions/merge.go: mergeComments, addNode", "internal/actions/replace.go: ReplaceNode", "internal/actions/format.go: sanitizeNode", "internal/builder/path.go: NewPath"])
p("no text appears from nowhere",
  "Every text (of a key or a scalar) in a resulting document is a text of the input document, or a text in the value of an overlay on it, as written there or with its format markers filled in, or a name on a path that such an overlay may create, or what the action combine makes of such a text and the value of its overlay. Nothing from other documents, other files or other overlays gets in.",
  "all files, all lists of overlays with any actions, queries and injections, all documents",
  "any number of overlays one after the other, on documents of any size",
  ["internal/actions/merge.go: MergeNode, addNode", "internal/actions/replace.go: ReplaceNode", "internal/actions/combine.go: CombineNode", "internal/actions/format.go: format", "internal/builder/path.go: NewPath", "internal/overlays/onmissing.go: doInjectPath"])
p("a place that several queries find",
  "When the queries of an overlay find a place several times (several queries, or one query by several ways), a replace (its own comments without markers) and a delete do there what they would do if it had been found once, also where places lie inside one another, in whatever order they are found. Where no place found lies inside another, merge, replace and combine are done on each place by itself, once for every time it is found, and the order of the queries does not matter; so a merge of scalars and mappings (distinct keys, no markers) does what it would do if each place had been found once, a merge of a sequence appends, and a combine adds, once for every time.",
  "all lists of queries, all documents, any number of places, any order and repetition",
  "any number of places found any number of times in any order, in documents of any size",
  ["internal/overlays/overlay.go: Apply, doAction", "internal/overlays/queries.go: Queries.Find", "internal/actions/merge.go: MergeNode", "internal/actions/replace.go: ReplaceNode", "internal/actions/delete.go: DeleteNode", "internal/actions/combine.go: CombineNode"])
p("a condition sees through aliases",
  "When the value of a condition is compared with a match, an alias counts with its name and with what it stands for: a comparison says yes only if no way down through entries, items and aliases leads to a difference in kind, tag, text or anchor, and for values that do not contain themselves exactly then. The comparison always ends, also for a value that contains an alias for itself; and for a value without aliases it does not matter what the aliases of the document stand for.",
  "all matches and values, with any anchors and aliases, values that contain themselves included",
  "graphs of nodes of any size and shape, cycles included; routes of any length",
  ["internal/overlays/documentquery.go: checkQuery, Condition"])
p("merging in layers",
  "Two merges in a row with the same query, at a path of names, can be written as one whose value is the second value merged into the first: the document has the same data in the end. In the same way two values files given one after the other can be merged beforehand. (Values without markers and aliases, keys distinct; the first value must not have something else where both what is there before and the second value have a mapping, or both have a list.)",
  "all documents, all pairs of values, all paths of names; all lists of values files",
  "values of any size and depth; any number of files before and after",
  ["internal/actions/merge.go: MergeNode, mergeMap, mergeArray, mergeScalar", "internal/overlays/overlay.go: Apply", "internal/instructions/values.go: getValues"])
p("ways of scoping an overlay",
  "Overlays listed under documents may as well be listed at the end of the file's overlays with a documentIndex, and the file's overlays under documents; a documentIndex is a set, one that lists all documents is as good as none, and an overlay for several documents may be divided into one for some of them followed by one for the rest. Common overlays may be written in front of the overlays of every entry, if every file is listed once (and the command line adds no overlay). The outcome is the same in each case, errors included.",
  "all files with any lists of overlays and documents, all overlays; all instructions and file systems",
  "any number of files, documents and overlays",
  ["internal/instructions/yamlfile.go: queueOverlays", "internal/instructions/document.go: checkDocumentIndex", "internal/overlays/overlay.go: CheckDocumentIndex", "internal/instructions/instructions.go: addCommonOverlays"])
p("one overlay for each query",
  "An overlay with several queries, paths of names none of which leads to or into what another one leads to, does the same as that overlay written once for each query: the outcome is the same document, error or crash, and the order of the queries does not matter if it succeeds. (Without a documentQuery; if the overlay injects what is missing, nothing must be.)",
  "all documents, overlays with any action and value, lists of unrelated paths of names",
  "any number of queries, documents of any size; places that move while others are edited",
  ["internal/overlays/overlay.go: Apply, doAction", "internal/overlays/query.go: Queries.Find", "internal/overlays/workstream.go: StartHandler"])
p("only the files that are named matter",
  "How the program ends, what it writes and in which states it can be interrupted depend on no file other than the instructions, the values files, the configuration file, and the inputs: those listed under yamlFiles or given by --path, and the YAML files under those of them that are directories. Any other file may have any contents, be missing, or be added, outside those directories.",
  "all command lines, configurations, instructions, file systems and contents of files; all schedules",
  "any number of files; directories of any depth; every schedule and every moment",
  ["internal/instructions/instructions.go: ReadInstructionFile, GetInstructions", "internal/instructions/values.go: getValues", "internal/instructions/yamlfile.go: expandDirectories, readYamlFile", "internal/instructions/config.go: ReadAdHocPaths", "internal/instructions/utils.go: ReadStream, getFileNames"])
p("the directory yot is started in",
  "If the names on the command line (instructions file, values files, --path) are absolute, it does not matter in which directory yot is started: it ends in the same ways and asks the operating system for the same things; with an absolute output directory the files are the same in the end. Paths in the instructions may be relative.",
  "all command lines with absolute names, all configurations, instructions, file systems, working directories; all schedules",
  "any working directory; any number of files; every schedule",
  ["internal/instructions/instructions.go: ReadInstructionFile", "internal/instructions/yamlfile.go: expandDirectories", "internal/instructions/config.go: ReadAdHocPaths, openOutputFile", "internal/instructions/utils.go: ReadStream, getFileNames"])
p("where the instructions come from",
  "What counts is the text of the instructions and the directory they lie in. Instructions in the working directory can be given by standard input instead; a template can be rendered beforehand, its result being given without values files; the name of the instructions file has no influence. In each case the program ends in the same ways, with the same outputs.",
  "all command lines with instructions, all texts, templates, values, directories; all schedules",
  "texts of any size; any number of values files, inputs and outputs; every schedule",
  ["internal/instructions/instructions.go: ReadInstructionFile", "internal/instructions/template.go: renderInstructionsTemplate", "internal/instructions/utils.go: ReadStream"])
if __name__ == "__main__":
    here = os.path.dirname(os.path.dirname(os.path.abspath(__file__)))
    with open(os.path.join(here, "properties.jsonl"), "w") as f:
        for x in P: f.write(json.dumps(x) + "\n")
    for x in P: print(x["id"], x["title"])
