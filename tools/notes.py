NOTES = {
"C01": ("proved", "Refinement of merge against the separate specification deepMerge on plain data; deepMerge itself is characterised per key and by key order (deepMerge_lookup, deepMerge_keys)."),
"C02": ("proved", "Frame theorem for mappings; C02_nested shows that the value below a mentioned key is merged by the same operation, so the statement recurs at every depth."),
"C03": ("proved", "Full tree equality on the second merge. Counterexamples show that sequences and markers must be excluded."),
"C04": ("proved", ""),
"C05": ("partial", "Count, order and values are proved in full; the key text is proved under the marker-interference provisos of C06, which are necessary."),
"C06": ("partial", "Verbatim storage proved in full. Substitution is proved under provisos; C06_interference and C06_marker_in_original show the unrestricted claim is false of the code."),
"C07": ("partial", "Same provisos as C06; a command that does not compile leaves the text, and format never fails."),
"C08": ("partial", "Proved when stripping creates no new marker; C08_marker_recreated shows the claim is false otherwise."),
"C09": ("partial", "False of the code in general: a head comment in the overlay erases the line and foot comment (C09_line_erased, C09_foot_erased). Proved for the remaining presence combinations."),
}
NOTES.update({
"C10": ("proved", ""),
"C11": ("proved", ""),
"C12": ("proved", ""),
"C13": ("proved", ""),
"C14": ("partial", "Proved when the sum fits 64 bits; C14_overflow shows it wraps otherwise, and C14_combine_adds_modulo says exactly how for all operands. The error condition is characterised exactly and lifted to whole documents."),
"C15": ("proved", "The user documentation calls it boolean addition; the code (and this property) is conjunction."),
"C16": ("proved", ""),
"C17": ("proved", ""),
})
NOTES.update({
"C18": ("proved", ""),
"C19": ("proved", ""),
"C20": ("partial", "Proved for nodes as the parser makes them; C20_emptied_mapping shows that a mapping emptied by a delete does not compare equal to {}. C20_exactly is the comparison in full."),
"C21": ("proved", ""),
"C22": ("proved", ""),
"C23": ("proved", ""),
"C24": ("proved", ""),
"C25": ("proved", ""),
"C32": ("proved", "Totality and losslessness for every input; the two-slot channel is modelled with its occupancy and never exceeds its capacity."),
})
NOTES.update({
"C26": ("proved", "The query is a path of names ($ and .name / ['name'] steps, or dotted names); the external query library is represented by the hypothesis that it finds exactly the node at that path."),
"C27": ("proved", "C27_non_mapping_on_path shows the documented limit: a scalar or sequence on the path is converted, so its data is lost."),
"C28": ("proved", ""),
"C29": ("proved", "Acceptance characterised exactly by an independent grammar (PlainPath)."),
"C30": ("proved", ""),
"C31": ("partial", "False of the code for names holding both a comma and the other kind of quote (C31_comma_and_quote); proved for all others, for either quote, with the expressibility of every name by a suitable quote where possible."),
})
NOTES.update({
"C33": ("partial", "False of the code in general: C33_crashes gives three crashes (inject without a query, an empty injectPath, inject after the root was deleted). Proved for single overlays outside these cases, for histories without inject, and for histories without delete; well-formedness is kept in all cases. C33_crashes_exactly and C33_history_crashes_exactly say exactly which overlays crash."),
})
NOTES.update({
"C34": ("partial", "False of the code in general: C34_overlays_lost (Go's append writes one file's overlays into the spare room of the shared common list; needs two or more common overlays, a command line overlay and two files with overlays of their own). Proved on slices with shared arrays for every growth rule when there is no command line overlay or the own overlays of fitting files agree; with Go's rule always for at most one common overlay."),
"C35": ("proved", ""),
})
NOTES.update({
"C36": ("partial", "False of the code for links with YAML names to directories (C36_link_loops: never finishes) and for entries naming a link to a directory (C36_linked_directory: no files). Proved otherwise, with the error conditions."),
"C37": ("partial", "False of the code for relative inputs (C37_relative_collision, reachable with -p .). Proved for clean absolute paths, and C37_reachable shows that entries of an instructions file are such."),
"C38": ("partial", "False of the code for a single file in the root directory, unclean absolute paths (C38_overwrites_input) and climbing outputPaths (C38_climbs). Proved on absolute locations, for any working directory and output directory, otherwise."),
"C39": ("partial", "All clean absolute paths of files except a single file in the root directory (C39_root_file)."),
"C40": ("partial", "The default case needs clean absolute paths; C40_stdin shows the output file '-' for standard input without outputPath."),
})
NOTES.update({
"C41": ("partial", "False of the code for the comment that belongs to the document node itself (C41_document_comment). Proved for every node below, with the removal of nothing else."),
"C42": ("proved", "The YAML encoder is a parameter; C42_file_omitted assumes it writes something for each document with content."),
"C43": ("partial", "Uniformity and independence of order are proved in full; repetition is not harmless (C43_repetition: the bits are added, so double quotes twice are single quotes)."),
"C44": ("proved", ""),
"C45": ("partial", "Proved for later files without aliases and without format markers; a marker in a later values file is interpreted (C45_markers_interpreted). Lists are concatenated, not replaced (C45_lists_concatenated)."),
})
NOTES.update({
"C47": ("proved", "Transition system of all goroutines with the channels explicit. C47_no_endless_run bounds every execution, C47_no_deadlock gives progress, C47_no_crash reduces crashes to crashes of processing one file (C33). A failing worker leaves its sender blocked; that goroutine does not keep Execute from returning."),
"C48": ("proved", ""),
"C49": ("proved", ""),
"C50": ("proved", "Overlay objects are shared and written in the model; Go's memory model is not modelled beyond reads seeing the old or the new value. C50_failure_writes(_not): when a file fails, whether other files are written does depend on the schedule."),
"C51": ("partial", "False of the code: C51_order_depends, and C51_every_order says how: every order of the files occurs under some schedule. Proved: each file's text is printed once and in one piece, and the claim for a single file."),
})
NOTES.update({
"C46": ("partial", "False of the code for the YOT_ variables (C46_counterexample, C46_variable_ignored: initConfig calls BindEnv with its arguments swapped, so no variable but YOT_CONFIG_FILE has any effect). Proved: flag, else configuration file, else default, and the choice of the configuration file. viper and the flag libraries are modelled from their documentation."),
})
NOTES.update({
"C52": ("proved", "Heap of nodes with pointers; documents and values are trees without common cells, values well formed, searches return nodes of the searched document. C52_jobs: any sequence of workloads over any documents sharing overlays, on every outcome. Alias targets (yaml.Node.Alias) are not represented; workloads are atomic in this model. The overlay's onMissing action, which Apply may write, is C25/C50."),
"C53": ("proved", "Each edit, a whole doAction, Apply and sequences of workloads. For a whole doAction that fails the outcome is the same for delete, replace, combine, for merge values without alias nodes, or unnested matches (C53_action); beyond that the example at the end of Props/HeapApply shows an error from merging into a node that was already cut off. Success always agrees (C53_action_success, C53_jobs)."),
})
NOTES.update({
"C54": ("partial", "False of the code for the documented name singleQuote (C54_misspelt: FlagMap says singleQoute). Proved for all other documented names, and everything accepted is passed on. The enumflag library is modelled from its documentation."),
})
NOTES.update({
"C06": ("partial", "Verbatim storage proved in full. Substitution is proved exactly (C06_exact_partial, and C06_entry_partial for an entry of a mapping) with the originals stripped of their own markers, provided the substituted text forms no new marker; C06_interference and C06_marker_in_original show the unrestricted claim is false of the code."),
"C09": ("partial", "False of the code in general: a head comment in the overlay erases the line and foot comment (C09_line_erased, C09_foot_erased). CommentsKept says what becomes of each comment in every combination, for keys, values and documents; and for every overlay and action, a comment kind that (with the kinds before it) does not occur in the overlay stays on every node that stays."),
})
NOTES.update({
"C55": ("partial", "The whole chain from decoded instructions to outputs, on slices of pointers and for all schedules, under `Sound`. Missing is what Sound excludes, where the claim is false of the code: two inputs whose lists fit into the spare room left by the command line overlay (C34), links with YAML names to directories (C36), a `nodes` key. Decoding YAML and the encoder are given functions."),
})
NOTES.update({
"C56": ("proved", "C56_merge_fails_iff is exact for values whose mappings have distinct keys without format markers; C56_only_failures and C56_applies are for all overlays. Existing documents are well formed and their root has not been deleted (C33)."),
})
NOTES.update({
"C57": ("proved", "Queries are paths of names (yaml-jsonpath itself is a parameter). C57_related and C57_injecting show that both provisos are needed."),
"C58": ("proved", "Queries are paths of names, overlays have no documentQuery. C58_delete_limits, C03_not_with_sequences and C03_not_with_markers show that the provisos are needed."),
})
NOTES.update({
"C59": ("proved", "The parser is outside (its node tree is the input); integers and paths are given functions; aliases outside of value and merge keys are rejected in the model."),
"C60": ("proved", "An overlay without name keeps the zero action, which has the effect of merge (C60_action is about the effect)."),
"C61": ("proved", ""),
"C62": ("proved", "The word under onMissing.action is not checked (C62_misspelt_onMissing: anything unknown counts as the default); unknown keys are ignored (C59)."),
"C63": ("partial", "False of the code: a null under yamlFiles, overlays, documents, documentQuery or conditions is a nil pointer that is dereferenced (C63_null_*: exactly when). Proved for lists without nulls."),
"C64": ("partial", "False of the code for queries that are empty or null (C64_empty_query: accepted, but without a compiled path) and for paths that are YAML lists or mappings (C64_not_text). Proved for all other flags."),
})
NOTES.update({
"C65": ("partial", "C55 on top of C59 and C64, stated in terms of the parsed instructions file and the flags; C65_memory_exists shows that the memory layout assumed exists for every task. Missing, and false of the code: null list items (C63), links with YAML names to directories (C36), a `nodes` key, own overlays of two inputs sharing the room `append` leaves after the command line overlay (C34). The YAML parser and encoder are given functions."),
})

NOTES.update({
"C66": ("partial", "C66_nothing_written holds without restriction. The others are for tasks without null list items or empty queries (C63, C64), links with YAML names to directories (C36), a `nodes` key, and the sharing of C34; there the code crashes, does not end or mixes up overlays. Files are identified by their absolute path (links are not followed), the disk does not change while being read."),
"C67": ("partial", "C67_stdout holds without restriction, the others as for C66. Results at their destinations provided that no two results have the same one (C37). Output files are not replaced at once, and an interrupted process can leave an empty or partial file: C67_not_atomic_partial. That an output file may be an input or the instructions file is C38. Directories created are not represented."),
"C68": ("partial", "False of the code for Sprig's functions (C68_sprig_refused: they are added after parsing) and for the template on standard input (C68_stdin_not_read). Markers in later values files are C45. Go's template engine is a parameter."),
"C69": ("partial", "Variables have no effect (C46). A log level in the configuration file that is not one of the six names crashes the process (C69_bad_level_crashes); with a negative indentation nothing is written (C69_negative_indent_partial), the process crashes."),
"C70": ("partial", "C70_all is for every state. The value printed is the documented one unless it should come from the variable (C46). An unknown name is not refused (C70_unknown)."),
})

NOTES.update({
"C71": ("partial", "C71_nothing_added, C71_merge_keeps, C71_combine_keeps, C71_replace and C71_output_options are the statement up to the last sentence, which needs its condition: replace, delete and a merge over another kind remove anchors and leave their aliases, and a value's own alias is installed as it stands (C71_dangling_counterexample). Alias targets are represented by their names."),
})
NOTES.update({
"C72": ("proved", "C72_each_path, C72_frame and C72_one_by_one; C72_injectPath for the fallback. C72_related_paths and C72_one_match_suppresses show that the two conditions are needed: of `a` and `a.b` only `a` is there afterwards, and one matching query keeps the others from being injected."),
})

NOTES.update({
"C73": ("proved", "Each read or write of a whole node, and of the field OnMissing.Action, is one step; memory is sequentially consistent. Goroutine i does all the work for file i, the encoding by the main goroutine included (which in the code comes one file after the other: more interleavings here). C73_same_failure, like C53, for merged values without alias nodes. C73_action_race: the one data race of the code, on the action of a shared overlay (an int); C73_actions: it only ever holds the given or the filled-in action."),
})

NOTES.update({
"C34": ("partial", "False of the code in general: C34_overlays_lost (Go's append writes one file's overlays into the spare room of the shared common list; needs two or more common overlays, a command line overlay and two files with overlays of their own). C34_what_each_file_gets says exactly what every file gets instead, for every growth rule of append, and C34_common_then_own_iff when the claim holds: exactly if there is no command line overlay or the own overlays of the files that fit agree; with Go's rule always for at most one common overlay (C34_common_then_own_few)."),
"C36": ("partial", "False of the code for links with YAML names to directories (C36_link_loops: never finishes) and for entries naming a link to a directory (C36_linked_directory: no files). C36_expansion says exactly, for every list of entries and every file system, when the expansion fails, when it never finishes, and what it gives otherwise."),
"C55": ("partial", "The whole chain from decoded instructions to outputs, on slices of pointers and for all schedules, with nothing left out: C55_inputs says what happens for every instructions file (read, refused, or never finished listing, C36). The claim is false of the code where an input's overlays are lost (C34): the theorems then say which overlays it gets, C55_own_overlays that these are its own exactly if C34's condition holds. Decoding YAML and the encoder are given functions (for decoding see C65)."),
"C65": ("partial", "C55 on top of C59 and C64, stated in terms of the parsed instructions file and the flags; C65_memory_exists shows that the memory layout assumed exists for every task. Missing: null list items, where the code crashes (C63). The claim is false of the code where listing the files never ends (C36) and where overlays are lost (C34, C65_own_overlays). The YAML parser and encoder are given functions."),
"C66": ("partial", "C66_nothing_written holds without restriction. The others are for tasks without null list items or empty queries, where the code crashes (C63, C64). C66_hangs_partial: the one way not to end (C36). Files are identified by their absolute path (links are not followed), the disk does not change while being read."),
})

NOTES.update({
"C55": ("proved", "The whole chain from decoded instructions to outputs, on slices of pointers, nil pointers included, and for all schedules, with nothing left out: C55_inputs says what happens for every instructions file (read, refused, or never finished listing, C36), C55_end_to_end and C55_only_results what is written, C55_succeeds and C55_no_error when it succeeds, C55_crash where a crash comes from, C55_own_overlays that each input gets its own overlays exactly if C34's condition holds. Decoding YAML and the encoder are given functions (for decoding see C65)."),
"C63": ("partial", "False of the code: a null under yamlFiles, overlays, documents, documentQuery or conditions is a nil pointer that is dereferenced (C63_null_*: exactly when; C66_null_file, C66_null_overlay: for the whole process). Proved for lists without nulls."),
"C64": ("partial", "False of the code for queries that are empty or null (C64_empty_query, C64_empty_query_crashes: accepted, but without a compiled path, and crashing on every document with content) and for paths that are YAML lists or mappings (C64_not_text). Proved for all other flags."),
"C65": ("proved", "C55 on top of C59 and C64, stated in terms of the parsed instructions file and the flags, for every instructions file without a null under yamlFiles (for such a null see C66_null_file); nulls in other lists and queries without path are in the model and crash when met. C65_memory_exists shows that the memory layout assumed exists for every task. The YAML parser and encoder are given functions."),
"C66": ("proved", "For every command line, configuration, instructions, file system, contents and schedule. C66_nothing_written: no task asked for, nothing written. C66_success, C66_success_asked; C66_unreadable; C66_no_false_alarm; C66_failure and C66_crash say where the other statuses come from, C66_null_file and C66_null_overlay that nulls crash, C66_ends and C66_hangs when the process ends. Assumed of the environment: the instructions directory is absolute or unset, the file system is consistent, append makes enough room. Files are identified by their absolute path (links are not followed), the disk does not change while being read."),
"C67": ("proved", "As for C66. Output files are not replaced at once, and an interrupted process can leave an empty or partial file: C67_not_atomic. That an output file may be an input or the instructions file is C38. Directories created are not represented."),
"C69": ("partial", "Variables have no effect (C46). A log level in the configuration file that is not one of the six names crashes the process (C69_bad_level_crashes); with a negative indentation nothing is written (C69_negative_indent), the process crashes."),
"C47": ("proved", "Transition system of all goroutines with the channels explicit, nil pointers in the queued lists included. C47_no_endless_run bounds every execution, C47_no_deadlock gives progress, C47_crash_iff reduces crashes to crashes of processing one file (C33, C63). A failing worker leaves its sender blocked; that goroutine does not keep Execute from returning."),
})
NOTES.update({
"C37": ("partial", "False of the code for relative inputs (C37_relative_collision, reachable with -p .); C37_relative_exactly says for all relative inputs exactly which two are written to the same file. Proved for clean absolute paths, and C37_reachable shows that entries of an instructions file are such."),
"C38": ("partial", "False of the code for a single file in the root directory, unclean absolute paths (C38_overwrites_input) and climbing outputPaths (C38_climbs). Proved on absolute locations, for any working directory and output directory, otherwise; C38_inside_relative for relative inputs."),
"C40": ("partial", "The default case is proved for clean absolute paths and for relative ones with a common directory (C40_default_relative); C40_stdin shows the output file '-' for standard input without outputPath."),
})
NOTES.update({
"C31": ("partial", "False of the code for names with an odd number of the other kind of quotes between two commas (C31_comma_and_quote); C31_exactly: for these and for no others, in any path of dotted and quoted names. C31_expressible: which names some quote works for."),
})
NOTES.update({
"C75": ("proved", "The search itself is the query library's (not in the repository); findSteps follows its documentation: names, *, indices, slices, unions, keys (~), recursive descent and filters; a filter is any predicate of the contents of the document and the node, applied to the children (filter) or to the node itself (test). Nested matches under merge: only that nothing else changes (C75_only_there)."),
})
NOTES.update({
"C74": ("proved", "C74_standard_input for --path - when the instructions do not list - themselves (C74_listed); C74_file and C74_listed for entries that bring no nodes of their own (a key nodes: in a yamlFiles entry is decoded into the entry; no documented key). What is left on standard input after other readers is a parameter."),
"C76": ("partial", "Proved for every command line of documented flags. False of the code for letters together with a separate value (C76_group_with_next: -so out is refused as an unknown command). cobra, pflag and enumflag are modelled from their documentation; the flags themselves are the code's. Commands other than the main one, help and version are not followed further."),
})
NOTES.update({
"C76": ("proved", "For every command line of documented flags. Letters together with a separate value, which the claim does not list, are refused (C76_group_with_next: -so out is an unknown command). cobra, pflag and enumflag are modelled from their documentation; the flags themselves are the code's. Commands other than the main one, help and version are not followed further."),
"C77": ("proved", "C77_apply, C77_history, C77_run; C77_steps_find_values for which queries find values. Each condition is needed: C77_marker_key, C77_key_query, C77_repeated_name, C77_no_value. That aliases keep their anchors is C71. That the encoder writes a valid document as valid YAML is the library's."),
})
NOTES.update({
"C78": ("proved", "C78_env_all, C78_env_one, C78_completion, C78_flags_refused, C78_words_refused, C78_help, C78_help_text, C78_after_dashes, C78_not_main, C78_bad_start (which also says that a configured log level that is no level's name crashes these commands too). So env can never show what a flag would set. cobra and pflag are modelled from their documentation; the scripts and help texts are parameters."),
})
NOTES.update({
"C79": ("partial", "False of the code for values in which a node contains an alias for itself, such as &a [*a] (C79_self_reference: the copying recurses until the stack is used up, which kills the process). C79_copy_ends_iff, C79_replace_ends_iff, C79_add_ends_iff: it ends for all other values; and then the rest of the claim holds (texts and comments of added nodes: C08). The copying library is modelled from knowledge of it."),
"C80": ("partial", "False of the code for queries with different matches: all of them must have the value (C80_one_of_counterexample, C80_all_of; C19 says exactly when an overlay applies). Proved when the matches agree."),
})
NOTES.update({
"C81": ("partial", "False of the code when a directory holds a file yot.config.EXT with one of viper's extensions, which is taken first (C81_extension_first); C81_found and C81_nothing say exactly which file is taken. Proved otherwise: C81_used_partial, C81_value_partial, C81_not_merged_partial. viper's search is modelled from knowledge of the library."),
"C46": ("partial", NOTES["C46"][1] + " The default log level differs from the documented one: C46_default_level."),
})
NOTES.update({
"C82": ("partial", "False of the code when inject is in effect, for instance as the default: then a delete of something that is not there creates it (C82_delete_injects for all documents and paths of names, C82_delete_counterexample); what happens without a match is the same for all actions (C82_any_action). Proved otherwise."),
"C83": ("partial", "C83_replace_key in full; C83_merge_key_partial for texts under the provisos of C06. False of the code for a key that is a template: its type stays (C83_template_key_type: 80 becomes port-80, still tagged as an integer). Keys may be repeated afterwards, see C77."),
"C84": ("partial", "Proved when there is no % in the document's texts and none but the markers' in the templates (their ambiguity: C06_interference), the markers being %v and %k (for those of comments: C06). False of the code for a scalar that the query itself finds: its key is not known and %k stands for nothing (C84_key_of_match; fillMerge is given the empty key there). Keys that are templates keep their type (see C83)."),
})
NOTES.update({
"C39": ("partial", "All clean absolute paths of files except a single file in the root directory, where the claim is false of the code: C39_root_file, for every name."),
"C40": ("partial", "The default case is proved for clean absolute paths and for relative ones with a common directory (C40_default_relative). False of the code for standard input without outputPath, whose file is always called '-' (C40_stdin_always)."),
"C38": ("partial", "False of the code for every single file in the root directory (C38_root_file), unclean absolute paths (C38_overwrites_input) and climbing outputPaths (C38_climbs). Proved on absolute locations, for any working directory and output directory, otherwise; C38_inside_relative for relative inputs."),
"C41": ("partial", "False of the code for the comments that belong to the document node itself (C41_document_comment); C41_exactly: it holds exactly of the documents without such. Proved for every node below, with the removal of nothing else."),
"C43": ("partial", "Uniformity and independence of order are proved in full; repetition is not harmless (C43_repetition: the bits are added, so double quotes twice are single quotes), C43_exactly: the style is the set of the listed ones exactly if none is repeated."),
})
NOTES.update({
"C85": ("proved", "C85_twice for documents in memory, C85_again for documents read back in another style, C85_run for whole files: the text of the second run is that of the first (the YAML library's reading what it wrote, up to styles, and its writing nothing but kinds, tags, texts, anchors, comments and styles are hypotheses). C85_limits: why sequences, markers and related paths are left out."),
})
NOTES.update({
"C86": ("proved", "The log is modelled as messages with the file they are about, one block for each step of Model/Execute; C86_exists: every schedule has a log. In a run without nil pointers (Run.Points); the wording of the lines and go-logging are not modelled."),
"C87": ("proved", "Lines of the searches are modelled too. The position in the announcement is the one the match had when it was found."),
"C88": ("proved", "For the text of a scalar or comment; the engine is a parameter."),
})
NOTES.update({
"C89": ("partial", "False of the code if there is an overlay on the command line and the file has overlays of its own (C89_command_line_counterexample, a consequence of C34's shared spare room); proved otherwise, for results (C89_result_partial, C89_add_partial) and for the outputs of whole runs under all schedules (C89_run_partial). C89_names_differ: the place of the output does depend on the other files."),
"C90": ("proved", "For overlays at paths of names without documentQuery and without injection; C90_replace_wins and C90_delete_wins allow any overlays before."),
})
NOTES.update({
"C91": ("proved", "Model/Arrays has Content as slices; C91_file relates every run to the heap model, C91_written to the trees the other properties are about, C91_runtime compares two run-times; OwnArrays (no two nodes share an array) is kept by every run and holds of decoded documents (C91_any_trees). Struct copies of overlay values, which are only read, are taken as the value itself."),
})
NOTES.update({
"C84": ("partial", "Proved for two classes: no % in the document's texts and none but the markers' in the templates (Tame); and document texts with % but without markers, with templates where nothing that could make a marker with a % follows one (Spaced). Outside of them it is false of the code (C84_percent_interference, C06_interference). The markers are %v and %k (for those of comments: C06). False of the code for a scalar that the query itself finds: its key is not known and %k stands for nothing (C84_key_of_match; fillMerge is given the empty key there). Keys that are templates keep their type (see C83)."),
})
NOTES.update({
"C79": ("partial", "False of the code for values in which a node contains an alias for itself, such as &a [*a] (C79_self_reference: the copying recurses until the stack is used up, which kills the process). C79_copy_ends_iff, C79_replace_ends_iff, C79_add_ends_iff: it ends for all other values; and then the rest of the claim holds, texts and comments included (C79_replace_text_partial, C79_add_text_partial: they are those a value without aliases gives). The copying library is modelled from knowledge of it."),
})
NOTES.update({
"C92": ("proved", "C92_sources (below the document node), C92_sources_all (with it); for remove-comments C92_removed, C92_plain, C92_none. The document node's own comment is not removed (C41)."),
"C93": ("proved", "The texts of created paths are those of what buildPath makes of the path (C18-C22 say what that is). The name of an alias counts as a text."),
})
NOTES.update({
"C28": ("proved", "The documentation's own example of an injectPath has an index, which the builder refuses: C28_documentation_counterexample (the run ends with an error), C28_injectPath_not_plain in general."),
})
NOTES.update({
"C94": ("proved", "C94_replace, C94_delete (nested places too); C94_each, C94_order, C94_merge, C94_combine_adds (no place inside another). What the provisos exclude: C94_merge_nested (the order matters), C94_merge_sequences."),
})
NOTES.update({
"C95": ("proved", "C95_ends, C95_equal_looks_same (any graph), C95_equal_iff (values that do not contain themselves), C95_no_alias (agrees with the comparison of trees, C19 and C80). go-cmp's following of pointers is modelled from knowledge of the library."),
})
NOTES.update({
"C96": ("proved", "C96_two_merges, C96_two_overlays, C96_values_files; that the proviso is needed: C96_between_counts. Comments and presentation may differ: only data are compared."),
})
NOTES.update({
"C97": ("proved", "C97_by_index, C97_by_document, C97_index_set, C97_no_index, C97_split (one file: the outcome is the same, errors and crashes included); C97_common (whole runs). That the proviso is needed: C97_listed_twice."),
})
NOTES.update({
"C98": ("proved", "C98_one_each, C98_order. That related paths are different: C98_related; that with injection one path found suppresses the others: C72."),
})
NOTES.update({
"C99": ("proved", "C99_ends, C99_leaves, C99_moment; C99_other_file, C99_other_path for one file or path. The configuration file is an input of its own (Start.fileAt), as are standard input and the environment."),
})
NOTES.update({
"C100": ("proved", "C100_ends, C100_leaves, C100_files. The configuration file that is found in the working directory (C81) is an input of its own: it is taken to be the same."),
})
NOTES.update({
"C101": ("proved", "C101_same_text, C101_stdin, C101_rendered. Standard input is taken not to be used for anything else."),
})
