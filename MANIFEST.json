{
 "claims": [
  {
   "property": "C01",
   "status": "proved",
   "theorems": [
    "Yot.C01_merge_is_deep_merge"
   ],
   "note": "Refinement of merge against the separate specification deepMerge on plain data; deepMerge itself is characterised per key and by key order (deepMerge_lookup, deepMerge_keys)."
  },
  {
   "property": "C02",
   "status": "proved",
   "theorems": [
    "Yot.C02_unmentioned_keys_untouched",
    "Yot.C02_nested"
   ],
   "note": "Frame theorem for mappings; C02_nested shows that the value below a mentioned key is merged by the same operation, so the statement recurs at every depth."
  },
  {
   "property": "C03",
   "status": "proved",
   "theorems": [
    "Yot.C03_merge_idempotent",
    "Yot.C03_not_with_sequences",
    "Yot.C03_not_with_markers"
   ],
   "note": "Full tree equality on the second merge. Counterexamples show that sequences and markers must be excluded."
  },
  {
   "property": "C04",
   "status": "proved",
   "theorems": [
    "Yot.C04_sequence_appended"
   ],
   "note": ""
  },
  {
   "property": "C05",
   "status": "partial",
   "theorems": [
    "Yot.C05_entry_by_entry",
    "Yot.C05_marker_key_applies_to_all",
    "Yot.C05_key_text_partial",
    "Yot.C05_empty_target"
   ],
   "note": "Count, order and values are proved in full; the key text is proved under the marker-interference provisos of C06, which are necessary."
  },
  {
   "property": "C06",
   "status": "partial",
   "theorems": [
    "Yot.C06_entry_partial",
    "Yot.C06_plain_text_verbatim",
    "Yot.C06_markers_partial",
    "Yot.C06_exact_partial",
    "Yot.C06_clean_outcome_partial",
    "Yot.C06_single_marker_partial",
    "Yot.C06_interference",
    "Yot.C06_marker_in_original"
   ],
   "note": "Verbatim storage proved in full. Substitution is proved exactly (C06_exact_partial, and C06_entry_partial for an entry of a mapping) with the originals stripped of their own markers, provided the substituted text forms no new marker; C06_interference and C06_marker_in_original show the unrestricted claim is false of the code."
  },
  {
   "property": "C07",
   "status": "partial",
   "theorems": [
    "Yot.C07_command_partial",
    "Yot.C07_command_exact_partial",
    "Yot.C07_bad_command_partial",
    "Yot.C07_no_failure"
   ],
   "note": "Same provisos as C06; a command that does not compile leaves the text, and format never fails."
  },
  {
   "property": "C08",
   "status": "partial",
   "theorems": [
    "Yot.C08_appended_partial",
    "Yot.C08_added_entry_partial",
    "Yot.C08_verbatim",
    "Yot.C08_no_marker_left_partial",
    "Yot.C08_marker_recreated"
   ],
   "note": "Proved when stripping creates no new marker; C08_marker_recreated shows the claim is false otherwise."
  },
  {
   "property": "C09",
   "status": "partial",
   "theorems": [
    "Yot.C09_merge_key_partial",
    "Yot.C09_merge_value_partial",
    "Yot.C09_merge_mapping",
    "Yot.C09_merge_document_partial",
    "Yot.C09_commentless_overlay",
    "Yot.C09_head_comments",
    "Yot.C09_line_comments_partial",
    "Yot.C09_merge_scalar_partial",
    "Yot.C09_merge_sequence_partial",
    "Yot.C09_replace_partial",
    "Yot.C09_combine_partial",
    "Yot.C09_line_markers_partial",
    "Yot.C09_line_erased",
    "Yot.C09_foot_erased",
    "Yot.C09_counterexample"
   ],
   "note": "False of the code in general: a head comment in the overlay erases the line and foot comment (C09_line_erased, C09_foot_erased). CommentsKept says what becomes of each comment in every combination, for keys, values and documents; and for every overlay and action, a comment kind that (with the kinds before it) does not occur in the overlay stays on every node that stays."
  },
  {
   "property": "C10",
   "status": "proved",
   "theorems": [
    "Yot.C10_replace_installs_value",
    "Yot.C10_replace_succeeds"
   ],
   "note": ""
  },
  {
   "property": "C11",
   "status": "proved",
   "theorems": [
    "Yot.C11_delete_removes_exactly_the_match",
    "Yot.C11_element",
    "Yot.C11_entry"
   ],
   "note": ""
  },
  {
   "property": "C12",
   "status": "proved",
   "theorems": [
    "Yot.C12_deletes_keep_documents_well_formed"
   ],
   "note": ""
  },
  {
   "property": "C13",
   "status": "proved",
   "theorems": [
    "Yot.C13_delete_set",
    "Yot.C13_order_and_duplicates",
    "Yot.C13_absent_match"
   ],
   "note": ""
  },
  {
   "property": "C14",
   "status": "partial",
   "theorems": [
    "Yot.C14_combine_adds_partial",
    "Yot.C14_combine_adds_modulo",
    "Yot.C14_not_an_int",
    "Yot.C14_succeeds_iff",
    "Yot.C14_overflow",
    "Yot.C14_other_notations",
    "Yot.C14_overlay_succeeds_only_if_all_match"
   ],
   "note": "Proved when the sum fits 64 bits; C14_overflow shows it wraps otherwise, and C14_combine_adds_modulo says exactly how for all operands. The error condition is characterised exactly and lifted to whole documents."
  },
  {
   "property": "C15",
   "status": "proved",
   "theorems": [
    "Yot.C15_combine_booleans",
    "Yot.C15_not_a_boolean",
    "Yot.C15_combine_concatenates"
   ],
   "note": "The user documentation calls it boolean addition; the code (and this property) is conjunction."
  },
  {
   "property": "C16",
   "status": "proved",
   "theorems": [
    "Yot.C16_only_scalars",
    "Yot.C16_combine_changes_text_only"
   ],
   "note": ""
  },
  {
   "property": "C17",
   "status": "proved",
   "theorems": [
    "Yot.C17_edits_only_inside_matches",
    "Yot.C17_apply"
   ],
   "note": ""
  },
  {
   "property": "C18",
   "status": "proved",
   "theorems": [
    "Yot.C18_unqualified_overlay_is_identity",
    "Yot.C18_otherwise"
   ],
   "note": ""
  },
  {
   "property": "C19",
   "status": "proved",
   "theorems": [
    "Yot.C19_or_of_ands",
    "Yot.C19_gate"
   ],
   "note": ""
  },
  {
   "property": "C20",
   "status": "partial",
   "theorems": [
    "Yot.C20_equality_as_data_partial",
    "Yot.C20_sound",
    "Yot.C20_exactly",
    "Yot.C20_emptied_mapping"
   ],
   "note": "Proved for nodes as the parser makes them; C20_emptied_mapping shows that a mapping emptied by a delete does not compare equal to {}. C20_exactly is the comparison in full."
  },
  {
   "property": "C21",
   "status": "proved",
   "theorems": [
    "Yot.C21_selection",
    "Yot.C21_unselected_document_unchanged"
   ],
   "note": ""
  },
  {
   "property": "C22",
   "status": "proved",
   "theorems": [
    "Yot.C22_order",
    "Yot.C22_sequential"
   ],
   "note": ""
  },
  {
   "property": "C23",
   "status": "proved",
   "theorems": [
    "Yot.C23_documents_independent",
    "Yot.C23_succeeds_iff"
   ],
   "note": ""
  },
  {
   "property": "C24",
   "status": "proved",
   "theorems": [
    "Yot.C24_action_names",
    "Yot.C24_otherwise_error",
    "Yot.C24_round_trip",
    "Yot.C24_default_is_merge"
   ],
   "note": ""
  },
  {
   "property": "C25",
   "status": "proved",
   "theorems": [
    "Yot.C25_effective_action",
    "Yot.C25_reading",
    "Yot.C25_ignore_wins",
    "Yot.C25_stable"
   ],
   "note": ""
  },
  {
   "property": "C26",
   "status": "proved",
   "theorems": [
    "Yot.C26_inject_creates_path"
   ],
   "note": "The query is a path of names ($ and .name / ['name'] steps, or dotted names); the external query library is represented by the hypothesis that it finds exactly the node at that path."
  },
  {
   "property": "C27",
   "status": "proved",
   "theorems": [
    "Yot.C27_inject_frame",
    "Yot.C27_entries_kept",
    "Yot.C27_non_mapping_on_path"
   ],
   "note": "C27_non_mapping_on_path shows the documented limit: a scalar or sequence on the path is converted, so its data is lost."
  },
  {
   "property": "C28",
   "status": "proved",
   "theorems": [
    "Yot.C28_no_injectPath",
    "Yot.C28_injectPath",
    "Yot.C28_plain_ignores_injectPath",
    "Yot.C28_injectPath_not_plain",
    "Yot.C28_documentation_counterexample"
   ],
   "note": "The documentation's own example of an injectPath has an index, which the builder refuses: C28_documentation_counterexample (the run ends with an error), C28_injectPath_not_plain in general."
  },
  {
   "property": "C29",
   "status": "proved",
   "theorems": [
    "Yot.C29_accepts_exactly_plain_paths",
    "Yot.C29_rejects_the_rest",
    "Yot.C29_operators_rejected",
    "Yot.C29_recursive_descent_rejected"
   ],
   "note": "Acceptance characterised exactly by an independent grammar (PlainPath)."
  },
  {
   "property": "C30",
   "status": "proved",
   "theorems": [
    "Yot.C30_dotted_with_root",
    "Yot.C30_dotted_without_root"
   ],
   "note": ""
  },
  {
   "property": "C31",
   "status": "partial",
   "theorems": [
    "Yot.C31_exactly",
    "Yot.C31_quoted_names_partial",
    "Yot.C31_expressible",
    "Yot.C31_comma_and_quote",
    "Yot.C31_several_names"
   ],
   "note": "False of the code for names with an odd number of the other kind of quotes between two commas (C31_comma_and_quote); C31_exactly: for these and for no others, in any path of dotted and quoted names. C31_expressible: which names some quote works for."
  },
  {
   "property": "C32",
   "status": "proved",
   "theorems": [
    "Yot.C32_lexing_is_total_and_lossless",
    "Yot.C32_lexer_never_blocks"
   ],
   "note": "Totality and losslessness for every input; the two-slot channel is modelled with its occupancy and never exceeds its capacity."
  },
  {
   "property": "C33",
   "status": "partial",
   "theorems": [
    "Yot.C33_crashes_exactly",
    "Yot.C33_history_crashes_exactly",
    "Yot.C33_no_crash_partial",
    "Yot.C33_no_inject_no_crash",
    "Yot.C33_keeps_well_formed",
    "Yot.C33_history_without_inject",
    "Yot.C33_history_without_delete",
    "Yot.C33_crashes"
   ],
   "note": "False of the code in general: C33_crashes gives three crashes (inject without a query, an empty injectPath, inject after the root was deleted). Proved for single overlays outside these cases, for histories without inject, and for histories without delete; well-formedness is kept in all cases. C33_crashes_exactly and C33_history_crashes_exactly say exactly which overlays crash."
  },
  {
   "property": "C34",
   "status": "partial",
   "theorems": [
    "Yot.C34_what_each_file_gets",
    "Yot.C34_common_then_own_iff",
    "Yot.C34_common_then_own_partial",
    "Yot.C34_common_then_own_few",
    "Yot.C34_overlays_lost"
   ],
   "note": "False of the code in general: C34_overlays_lost (Go's append writes one file's overlays into the spare room of the shared common list; needs two or more common overlays, a command line overlay and two files with overlays of their own). C34_what_each_file_gets says exactly what every file gets instead, for every growth rule of append, and C34_common_then_own_iff when the claim holds: exactly if there is no command line overlay or the own overlays of the files that fit agree; with Go's rule always for at most one common overlay (C34_common_then_own_few)."
  },
  {
   "property": "C35",
   "status": "proved",
   "theorems": [
    "Yot.C35_paths",
    "Yot.C35_entry",
    "Yot.C35_complete"
   ],
   "note": ""
  },
  {
   "property": "C36",
   "status": "partial",
   "theorems": [
    "Yot.C36_files",
    "Yot.C36_files_absolute",
    "Yot.C36_files_once",
    "Yot.C36_expansion",
    "Yot.C36_link_loops",
    "Yot.C36_linked_directory"
   ],
   "note": "False of the code for links with YAML names to directories (C36_link_loops: never finishes) and for entries naming a link to a directory (C36_linked_directory: no files). C36_expansion says exactly, for every list of entries and every file system, when the expansion fails, when it never finishes, and what it gives otherwise."
  },
  {
   "property": "C37",
   "status": "partial",
   "theorems": [
    "Yot.C37_reachable",
    "Yot.C37_distinct_outputs_partial",
    "Yot.C37_relative_collision",
    "Yot.C37_flattened",
    "Yot.C37_relative_exactly"
   ],
   "note": "False of the code for relative inputs (C37_relative_collision, reachable with -p .); C37_relative_exactly says for all relative inputs exactly which two are written to the same file. Proved for clean absolute paths, and C37_reachable shows that entries of an instructions file are such."
  },
  {
   "property": "C38",
   "status": "partial",
   "theorems": [
    "Yot.C38_inside_partial",
    "Yot.C38_inside_explicit",
    "Yot.C38_inputs_kept_partial",
    "Yot.C38_overwrites_input",
    "Yot.C38_climbs",
    "Yot.C38_root_file",
    "Yot.C38_inside_relative"
   ],
   "note": "False of the code for every single file in the root directory (C38_root_file), unclean absolute paths (C38_overwrites_input) and climbing outputPaths (C38_climbs). Proved on absolute locations, for any working directory and output directory, otherwise; C38_inside_relative for relative inputs."
  },
  {
   "property": "C39",
   "status": "partial",
   "theorems": [
    "Yot.C39_common_directory_partial",
    "Yot.C39_root_file"
   ],
   "note": "All clean absolute paths of files except a single file in the root directory, where the claim is false of the code: C39_root_file, for every name."
  },
  {
   "property": "C40",
   "status": "partial",
   "theorems": [
    "Yot.C40_file",
    "Yot.C40_directory",
    "Yot.C40_default_partial",
    "Yot.C40_stdin_always",
    "Yot.C40_stdin",
    "Yot.C40_default_relative"
   ],
   "note": "The default case is proved for clean absolute paths and for relative ones with a common directory (C40_default_relative). False of the code for standard input without outputPath, whose file is always called '-' (C40_stdin_always)."
  },
  {
   "property": "C41",
   "status": "partial",
   "theorems": [
    "Yot.C41_no_comments_left_partial",
    "Yot.C41_not_requested",
    "Yot.C41_document_comment",
    "Yot.C41_exactly"
   ],
   "note": "False of the code for the comments that belong to the document node itself (C41_document_comment); C41_exactly: it holds exactly of the documents without such. Proved for every node below, with the removal of nothing else."
  },
  {
   "property": "C42",
   "status": "proved",
   "theorems": [
    "Yot.C42_emptied_omitted",
    "Yot.C42_file_omitted",
    "Yot.C42_root_deleted"
   ],
   "note": "The YAML encoder is a parameter; C42_file_omitted assumes it writes something for each document with content."
  },
  {
   "property": "C43",
   "status": "partial",
   "theorems": [
    "Yot.C43_uniform",
    "Yot.C43_order",
    "Yot.C43_set_partial",
    "Yot.C43_repetition",
    "Yot.C43_exactly"
   ],
   "note": "Uniformity and independence of order are proved in full; repetition is not harmless (C43_repetition: the bits are added, so double quotes twice are single quotes), C43_exactly: the style is the set of the listed ones exactly if none is repeated."
  },
  {
   "property": "C44",
   "status": "proved",
   "theorems": [
    "Yot.C44_round_trip",
    "Yot.C44_names",
    "Yot.C44_texts",
    "Yot.C44_bare_name"
   ],
   "note": ""
  },
  {
   "property": "C45",
   "status": "partial",
   "theorems": [
    "Yot.C45_deep_merge_partial",
    "Yot.C45_unmentioned_kept",
    "Yot.C45_last_decides",
    "Yot.C45_lists_concatenated",
    "Yot.C45_markers_interpreted"
   ],
   "note": "Proved for later files without aliases and without format markers; a marker in a later values file is interpreted (C45_markers_interpreted). Lists are concatenated, not replaced (C45_lists_concatenated)."
  },
  {
   "property": "C46",
   "status": "partial",
   "theorems": [
    "Yot.C46_precedence_partial",
    "Yot.C46_variable_ignored",
    "Yot.C46_counterexample",
    "Yot.C46_config_file",
    "Yot.C46_config_file_named",
    "Yot.C46_default_level"
   ],
   "note": "False of the code for the YOT_ variables (C46_counterexample, C46_variable_ignored: initConfig calls BindEnv with its arguments swapped, so no variable but YOT_CONFIG_FILE has any effect). Proved: flag, else configuration file, else default, and the choice of the configuration file. viper and the flag libraries are modelled from their documentation. The default log level differs from the documented one: C46_default_level."
  },
  {
   "property": "C47",
   "status": "proved",
   "theorems": [
    "Yot.C47_no_endless_run",
    "Yot.C47_no_deadlock",
    "Yot.C47_channel",
    "Yot.C47_no_crash",
    "Yot.C47_finishes",
    "Yot.C47_crash_iff"
   ],
   "note": "Transition system of all goroutines with the channels explicit, nil pointers in the queued lists included. C47_no_endless_run bounds every execution, C47_no_deadlock gives progress, C47_crash_iff reduces crashes to crashes of processing one file (C33, C63). A failing worker leaves its sender blocked; that goroutine does not keep Execute from returning."
  },
  {
   "property": "C48",
   "status": "proved",
   "theorems": [
    "Yot.C48_succeeds",
    "Yot.C48_exactly_once",
    "Yot.C48_never_twice"
   ],
   "note": ""
  },
  {
   "property": "C49",
   "status": "proved",
   "theorems": [
    "Yot.C49_failing_file",
    "Yot.C49_real_error"
   ],
   "note": ""
  },
  {
   "property": "C50",
   "status": "proved",
   "theorems": [
    "Yot.C50_same_contents",
    "Yot.C50_same_verdict",
    "Yot.C50_failure_writes",
    "Yot.C50_failure_writes_not",
    "Yot.C50_failure_any_outputs"
   ],
   "note": "Overlay objects are shared and written in the model; Go's memory model is not modelled beyond reads seeing the old or the new value. C50_failure_writes(_not): when a file fails, whether other files are written does depend on the schedule."
  },
  {
   "property": "C51",
   "status": "partial",
   "theorems": [
    "Yot.C51_blocks_partial",
    "Yot.C51_single_file_partial",
    "Yot.C51_order_depends",
    "Yot.C51_every_order"
   ],
   "note": "False of the code: C51_order_depends, and C51_every_order says how: every order of the files occurs under some schedule. Proved: each file's text is printed once and in one piece, and the claim for a single file."
  },
  {
   "property": "C52",
   "status": "proved",
   "theorems": [
    "Yot.C52_action",
    "Yot.C52_jobs"
   ],
   "note": "Heap of nodes with pointers; documents and values are trees without common cells, values well formed, searches return nodes of the searched document. C52_jobs: any sequence of workloads over any documents sharing overlays, on every outcome. Alias targets (yaml.Node.Alias) are not represented; workloads are atomic in this model. The overlay's onMissing action, which Apply may write, is C25/C50."
  },
  {
   "property": "C53",
   "status": "proved",
   "theorems": [
    "Yot.C53_merge",
    "Yot.C53_replace",
    "Yot.C53_combine",
    "Yot.C53_delete",
    "Yot.C53_remove_comments",
    "Yot.C53_set_style",
    "Yot.C53_sanitize",
    "Yot.C53_action",
    "Yot.C53_action_success",
    "Yot.C53_jobs",
    "Yot.C53_jobs_outcome",
    "Yot.C53_any_trees",
    "Yot.C53_names_searchable",
    "Yot.C53_file"
   ],
   "note": "Each edit, a whole doAction, Apply and sequences of workloads. For a whole doAction that fails the outcome is the same for delete, replace, combine, for merge values without alias nodes, or unnested matches (C53_action); beyond that the example at the end of Props/HeapApply shows an error from merging into a node that was already cut off. Success always agrees (C53_action_success, C53_jobs)."
  },
  {
   "property": "C54",
   "status": "partial",
   "theorems": [
    "Yot.C54_flag",
    "Yot.C54_documented_names_partial",
    "Yot.C54_misspelt"
   ],
   "note": "False of the code for the documented name singleQuote (C54_misspelt: FlagMap says singleQoute). Proved for all other documented names, and everything accepted is passed on. The enumflag library is modelled from its documentation."
  },
  {
   "property": "C55",
   "status": "proved",
   "theorems": [
    "Yot.C55_inputs",
    "Yot.C55_own_overlays",
    "Yot.C55_end_to_end",
    "Yot.C55_only_results",
    "Yot.C55_succeeds",
    "Yot.C55_no_error",
    "Yot.C55_crash"
   ],
   "note": "The whole chain from decoded instructions to outputs, on slices of pointers, nil pointers included, and for all schedules, with nothing left out: C55_inputs says what happens for every instructions file (read, refused, or never finished listing, C36), C55_end_to_end and C55_only_results what is written, C55_succeeds and C55_no_error when it succeeds, C55_crash where a crash comes from, C55_own_overlays that each input gets its own overlays exactly if C34's condition holds. Decoding YAML and the encoder are given functions (for decoding see C65)."
  },
  {
   "property": "C56",
   "status": "proved",
   "theorems": [
    "Yot.C56_merge_fails_iff",
    "Yot.C56_only_failures",
    "Yot.C56_applies"
   ],
   "note": "C56_merge_fails_iff is exact for values whose mappings have distinct keys without format markers; C56_only_failures and C56_applies are for all overlays. Existing documents are well formed and their root has not been deleted (C33)."
  },
  {
   "property": "C57",
   "status": "proved",
   "theorems": [
    "Yot.C57_order_irrelevant",
    "Yot.C57_fails_alike",
    "Yot.C57_related",
    "Yot.C57_injecting"
   ],
   "note": "Queries are paths of names (yaml-jsonpath itself is a parameter). C57_related and C57_injecting show that both provisos are needed."
  },
  {
   "property": "C58",
   "status": "proved",
   "theorems": [
    "Yot.C58_replace_again",
    "Yot.C58_merge_again",
    "Yot.C58_delete_again",
    "Yot.C58_delete_limits"
   ],
   "note": "Queries are paths of names, overlays have no documentQuery. C58_delete_limits, C03_not_with_sequences and C03_not_with_markers show that the provisos are needed."
  },
  {
   "property": "C59",
   "status": "proved",
   "theorems": [
    "Yot.C59_means_what_it_says",
    "Yot.C59_overlay",
    "Yot.C59_overlay_keys",
    "Yot.C59_document_keys",
    "Yot.C59_file_keys",
    "Yot.C59_instruction_keys"
   ],
   "note": "The parser is outside (its node tree is the input); integers and paths are given functions; aliases outside of value and merge keys are rejected in the model."
  },
  {
   "property": "C60",
   "status": "proved",
   "theorems": [
    "Yot.C60_action",
    "Yot.C60_documentIndex",
    "Yot.C60_null_is_absent",
    "Yot.C60_null_value"
   ],
   "note": "An overlay without name keeps the zero action, which has the effect of merge (C60_action is about the effect)."
  },
  {
   "property": "C61",
   "status": "proved",
   "theorems": [
    "Yot.C61_one_query",
    "Yot.C61_list"
   ],
   "note": ""
  },
  {
   "property": "C62",
   "status": "proved",
   "theorems": [
    "Yot.C62_repeated_key",
    "Yot.C62_bad_setting",
    "Yot.C62_bad_action",
    "Yot.C62_misspelt_onMissing",
    "Yot.C62_bad_item",
    "Yot.C62_bad_list",
    "Yot.C62_no_document"
   ],
   "note": "The word under onMissing.action is not checked (C62_misspelt_onMissing: anything unknown counts as the default); unknown keys are ignored (C59)."
  },
  {
   "property": "C63",
   "status": "partial",
   "theorems": [
    "Yot.C63_plain_overlay_partial",
    "Yot.C63_plain_queue_partial",
    "Yot.C63_plain_files_partial",
    "Yot.C63_null_file",
    "Yot.C63_null_file_crashes",
    "Yot.C63_null_overlay_crashes",
    "Yot.C63_null_condition_crashes",
    "Yot.C63_null_condition_apply",
    "Yot.C63_nulls_are_read"
   ],
   "note": "False of the code: a null under yamlFiles, overlays, documents, documentQuery or conditions is a nil pointer that is dereferenced (C63_null_*: exactly when; C66_null_file, C66_null_overlay: for the whole process). Proved for lists without nulls."
  },
  {
   "property": "C64",
   "status": "partial",
   "theorems": [
    "Yot.C64_same_as_in_file_partial",
    "Yot.C64_no_query",
    "Yot.C64_empty_query",
    "Yot.C64_empty_query_crashes",
    "Yot.C64_empty_query_empty_document",
    "Yot.C64_not_text"
   ],
   "note": "False of the code for queries that are empty or null (C64_empty_query, C64_empty_query_crashes: accepted, but without a compiled path, and crashing on every document with content) and for paths that are YAML lists or mappings (C64_not_text). Proved for all other flags."
  },
  {
   "property": "C65",
   "status": "proved",
   "theorems": [
    "Yot.C65_from_file",
    "Yot.C65_succeeds",
    "Yot.C65_only_results",
    "Yot.C65_crash",
    "Yot.C65_own_overlays",
    "Yot.C65_memory_exists"
   ],
   "note": "C55 on top of C59 and C64, stated in terms of the parsed instructions file and the flags, for every instructions file without a null under yamlFiles (for such a null see C66_null_file); nulls in other lists and queries without path are in the model and crash when met. C65_memory_exists shows that the memory layout assumed exists for every task. The YAML parser and encoder are given functions."
  },
  {
   "property": "C66",
   "status": "proved",
   "theorems": [
    "Yot.C66_success",
    "Yot.C66_success_asked",
    "Yot.C66_nothing_written",
    "Yot.C66_bad_instructions",
    "Yot.C66_refused_reported",
    "Yot.C66_bad_value",
    "Yot.C66_null_file",
    "Yot.C66_unreadable",
    "Yot.C66_no_false_alarm",
    "Yot.C66_ends",
    "Yot.C66_hangs",
    "Yot.C66_failure",
    "Yot.C66_crash",
    "Yot.C66_null_overlay"
   ],
   "note": "For every command line, configuration, instructions, file system, contents and schedule. C66_nothing_written: no task asked for, nothing written. C66_success, C66_success_asked; C66_unreadable; C66_no_false_alarm; C66_failure and C66_crash say where the other statuses come from, C66_null_file and C66_null_overlay that nulls crash, C66_ends and C66_hangs when the process ends. Assumed of the environment: the instructions directory is absolute or unset, the file system is consistent, append makes enough room. Files are identified by their absolute path (links are not followed), the disk does not change while being read."
  },
  {
   "property": "C67",
   "status": "proved",
   "theorems": [
    "Yot.C67_files_after",
    "Yot.C67_any_moment",
    "Yot.C67_stdout",
    "Yot.C67_end_is_moment",
    "Yot.C67_not_atomic"
   ],
   "note": "As for C66. Output files are not replaced at once, and an interrupted process can leave an empty or partial file: C67_not_atomic. That an output file may be an input or the instructions file is C38. Directories created are not represented."
  },
  {
   "property": "C68",
   "status": "partial",
   "theorems": [
    "Yot.C68_verbatim",
    "Yot.C68_template_partial",
    "Yot.C68_sprig_refused",
    "Yot.C68_stdin_not_read",
    "Yot.C68_bad_values"
   ],
   "note": "False of the code for Sprig's functions (C68_sprig_refused: they are added after parsing) and for the template on standard input (C68_stdin_not_read). Markers in later values files are C45. Go's template engine is a parameter."
  },
  {
   "property": "C69",
   "status": "partial",
   "theorems": [
    "Yot.C69_settings_partial",
    "Yot.C69_relative_to_instructions",
    "Yot.C69_instructions_directory",
    "Yot.C69_no_instructions_directory",
    "Yot.C69_bad_level_crashes",
    "Yot.C69_negative_indent"
   ],
   "note": "Variables have no effect (C46). A log level in the configuration file that is not one of the six names crashes the process (C69_bad_level_crashes); with a negative indentation nothing is written (C69_negative_indent), the process crashes."
  },
  {
   "property": "C70",
   "status": "partial",
   "theorems": [
    "Yot.C70_all",
    "Yot.C70_all_partial",
    "Yot.C70_config_file",
    "Yot.C70_documented_partial",
    "Yot.C70_unknown"
   ],
   "note": "C70_all is for every state. The value printed is the documented one unless it should come from the variable (C46). An unknown name is not refused (C70_unknown)."
  },
  {
   "property": "C71",
   "status": "partial",
   "theorems": [
    "Yot.C71_nothing_added",
    "Yot.C71_output_options",
    "Yot.C71_aliases_resolve_partial",
    "Yot.C71_merge_keeps",
    "Yot.C71_combine_keeps",
    "Yot.C71_replace",
    "Yot.C71_dangling_counterexample"
   ],
   "note": "C71_nothing_added, C71_merge_keeps, C71_combine_keeps, C71_replace and C71_output_options are the statement up to the last sentence, which needs its condition: replace, delete and a merge over another kind remove anchors and leave their aliases, and a value's own alias is installed as it stands (C71_dangling_counterexample). Alias targets are represented by their names."
  },
  {
   "property": "C72",
   "status": "proved",
   "theorems": [
    "Yot.C72_each_path",
    "Yot.C72_frame",
    "Yot.C72_one_by_one",
    "Yot.C72_injectPath",
    "Yot.C72_related_paths",
    "Yot.C72_one_match_suppresses"
   ],
   "note": "C72_each_path, C72_frame and C72_one_by_one; C72_injectPath for the fallback. C72_related_paths and C72_one_match_suppresses show that the two conditions are needed: of `a` and `a.b` only `a` is there afterwards, and one matching query keeps the others from being injected."
  },
  {
   "property": "C73",
   "status": "proved",
   "theorems": [
    "Yot.C73_no_node_race",
    "Yot.C73_own_names",
    "Yot.C73_never_mixed",
    "Yot.C73_values_unchanged",
    "Yot.C73_actions",
    "Yot.C73_same_documents",
    "Yot.C73_same_text",
    "Yot.C73_same_failure",
    "Yot.C73_no_waiting",
    "Yot.C73_no_endless_run",
    "Yot.C73_action_race"
   ],
   "note": "Each read or write of a whole node, and of the field OnMissing.Action, is one step; memory is sequentially consistent. Goroutine i does all the work for file i, the encoding by the main goroutine included (which in the code comes one file after the other: more interleavings here). C73_same_failure, like C53, for merged values without alias nodes. C73_action_race: the one data race of the code, on the action of a shared overlay (an int); C73_actions: it only ever holds the given or the filled-in action."
  },
  {
   "property": "C74",
   "status": "proved",
   "theorems": [
    "Yot.C74_standard_input",
    "Yot.C74_file",
    "Yot.C74_listed"
   ],
   "note": "C74_standard_input for --path - when the instructions do not list - themselves (C74_listed); C74_file and C74_listed for entries that bring no nodes of their own (a key nodes: in a yamlFiles entry is decoded into the entry; no documented key). What is left on standard input after other readers is a parameter."
  },
  {
   "property": "C75",
   "status": "proved",
   "theorems": [
    "Yot.C75_matches",
    "Yot.C75_delete",
    "Yot.C75_replace",
    "Yot.C75_only_there",
    "Yot.C75_combine",
    "Yot.C75_each",
    "Yot.C75_plain_queries",
    "Yot.C75_delete_anywhere",
    "Yot.C75_any_document",
    "Yot.C75_names",
    "Yot.C75_searchable"
   ],
   "note": "The search itself is the query library's (not in the repository); findSteps follows its documentation: names, *, indices, slices, unions, keys (~), recursive descent and filters; a filter is any predicate of the contents of the document and the node, applied to the children (filter) or to the node itself (test). Nested matches under merge: only that nothing else changes (C75_only_there)."
  },
  {
   "property": "C76",
   "status": "proved",
   "theorems": [
    "Yot.C76_spellings",
    "Yot.C76_end_of_flags",
    "Yot.C76_unknown_flag",
    "Yot.C76_unknown_letter",
    "Yot.C76_stray_word",
    "Yot.C76_value_missing",
    "Yot.C76_group_with_next",
    "Yot.C76_not_run",
    "Yot.C76_runs",
    "Yot.C76_order",
    "Yot.C76_files",
    "Yot.C76_settings",
    "Yot.C76_styles",
    "Yot.C76_level",
    "Yot.C76_on_missing",
    "Yot.C76_action",
    "Yot.C76_action_empty",
    "Yot.C76_taken",
    "Yot.C76_taken_each",
    "Yot.C76_taken_yaml",
    "Yot.C76_on_missing_empty",
    "Yot.C76_info"
   ],
   "note": "For every command line of documented flags. Letters together with a separate value, which the claim does not list, are refused (C76_group_with_next: -so out is an unknown command). cobra, pflag and enumflag are modelled from their documentation; the flags themselves are the code's. Commands other than the main one, help and version are not followed further."
  },
  {
   "property": "C77",
   "status": "proved",
   "theorems": [
    "Yot.C77_apply",
    "Yot.C77_history",
    "Yot.C77_run",
    "Yot.C77_steps_find_values",
    "Yot.C77_marker_key",
    "Yot.C77_key_query",
    "Yot.C77_repeated_name",
    "Yot.C77_no_value"
   ],
   "note": "C77_apply, C77_history, C77_run; C77_steps_find_values for which queries find values. Each condition is needed: C77_marker_key, C77_key_query, C77_repeated_name, C77_no_value. That aliases keep their anchors is C71. That the encoder writes a valid document as valid YAML is the library's."
  },
  {
   "property": "C78",
   "status": "proved",
   "theorems": [
    "Yot.C78_env_all",
    "Yot.C78_env_one",
    "Yot.C78_flags_refused",
    "Yot.C78_words_refused",
    "Yot.C78_completion",
    "Yot.C78_help",
    "Yot.C78_help_text",
    "Yot.C78_help_line",
    "Yot.C78_after_dashes",
    "Yot.C78_bad_start",
    "Yot.C78_not_main"
   ],
   "note": "C78_env_all, C78_env_one, C78_completion, C78_flags_refused, C78_words_refused, C78_help, C78_help_text, C78_after_dashes, C78_not_main, C78_bad_start (which also says that a configured log level that is no level's name crashes these commands too). So env can never show what a flag would set. cobra and pflag are modelled from their documentation; the scripts and help texts are parameters."
  },
  {
   "property": "C79",
   "status": "partial",
   "theorems": [
    "Yot.C79_copy_ends_iff",
    "Yot.C79_copy_partial",
    "Yot.C79_replace_ends_iff",
    "Yot.C79_replace_partial",
    "Yot.C79_add_ends_iff",
    "Yot.C79_add_partial",
    "Yot.C79_self_reference",
    "Yot.C79_replace_text_partial",
    "Yot.C79_add_text_partial"
   ],
   "note": "False of the code for values in which a node contains an alias for itself, such as &a [*a] (C79_self_reference: the copying recurses until the stack is used up, which kills the process). C79_copy_ends_iff, C79_replace_ends_iff, C79_add_ends_iff: it ends for all other values; and then the rest of the claim holds, texts and comments included (C79_replace_text_partial, C79_add_text_partial: they are those a value without aliases gives). The copying library is modelled from knowledge of it."
  },
  {
   "property": "C80",
   "status": "partial",
   "theorems": [
    "Yot.C80_one_of_partial",
    "Yot.C80_one_of_counterexample",
    "Yot.C80_all_of"
   ],
   "note": "False of the code for queries with different matches: all of them must have the value (C80_one_of_counterexample, C80_all_of; C19 says exactly when an overlay applies). Proved when the matches agree."
  },
  {
   "property": "C81",
   "status": "partial",
   "theorems": [
    "Yot.C81_found",
    "Yot.C81_nothing",
    "Yot.C81_used_partial",
    "Yot.C81_value_partial",
    "Yot.C81_not_merged_partial",
    "Yot.C81_extension_first"
   ],
   "note": "False of the code when a directory holds a file yot.config.EXT with one of viper's extensions, which is taken first (C81_extension_first); C81_found and C81_nothing say exactly which file is taken. Proved otherwise: C81_used_partial, C81_value_partial, C81_not_merged_partial. viper's search is modelled from knowledge of the library."
  },
  {
   "property": "C82",
   "status": "partial",
   "theorems": [
    "Yot.C82_nothing_to_do_partial",
    "Yot.C82_any_action",
    "Yot.C82_delete_injects",
    "Yot.C82_delete_counterexample"
   ],
   "note": "False of the code when inject is in effect, for instance as the default: then a delete of something that is not there creates it (C82_delete_injects for all documents and paths of names, C82_delete_counterexample); what happens without a match is the same for all actions (C82_any_action). Proved otherwise."
  },
  {
   "property": "C83",
   "status": "partial",
   "theorems": [
    "Yot.C83_template_key_type",
    "Yot.C83_replace_key",
    "Yot.C83_merge_key_partial"
   ],
   "note": "C83_replace_key in full; C83_merge_key_partial for texts under the provisos of C06. False of the code for a key that is a template: its type stays (C83_template_key_type: 80 becomes port-80, still tagged as an integer). Keys may be repeated afterwards, see C77."
  },
  {
   "property": "C84",
   "status": "partial",
   "theorems": [
    "Yot.C84_merge_templates_partial",
    "Yot.C84_merge_percent_partial",
    "Yot.C84_overlay_partial",
    "Yot.C84_overlay_percent_partial",
    "Yot.C84_key_of_match",
    "Yot.C84_no_templates",
    "Yot.C84_percent_interference"
   ],
   "note": "Proved for two classes: no % in the document's texts and none but the markers' in the templates (Tame); and document texts with % but without markers, with templates where nothing that could make a marker with a % follows one (Spaced). Outside of them it is false of the code (C84_percent_interference, C06_interference). The markers are %v and %k (for those of comments: C06). False of the code for a scalar that the query itself finds: its key is not known and %k stands for nothing (C84_key_of_match; fillMerge is given the empty key there). Keys that are templates keep their type (see C83)."
  },
  {
   "property": "C85",
   "status": "proved",
   "theorems": [
    "Yot.C85_twice",
    "Yot.C85_again",
    "Yot.C85_run",
    "Yot.C85_limits"
   ],
   "note": "C85_twice for documents in memory, C85_again for documents read back in another style, C85_run for whole files: the text of the second run is that of the first (the YAML library's reading what it wrote, up to styles, and its writing nothing but kinds, tags, texts, anchors, comments and styles are hypotheses). C85_limits: why sequences, markers and related paths are left out."
  },
  {
   "property": "C86",
   "status": "proved",
   "theorems": [
    "Yot.C86_announced",
    "Yot.C86_all",
    "Yot.C86_failed",
    "Yot.C86_exists",
    "Yot.C86_levels",
    "Yot.C86_level_names",
    "Yot.C86_level_set"
   ],
   "note": "The log is modelled as messages with the file they are about, one block for each step of Model/Execute; C86_exists: every schedule has a log. In a run without nil pointers (Run.Points); the wording of the lines and go-logging are not modelled."
  },
  {
   "property": "C87",
   "status": "proved",
   "theorems": [
    "Yot.C87_not_met",
    "Yot.C87_no_results",
    "Yot.C87_ignored",
    "Yot.C87_no_path",
    "Yot.C87_applied",
    "Yot.C87_not_applied",
    "Yot.C87_accounted",
    "Yot.C87_searched"
   ],
   "note": "Lines of the searches are modelled too. The position in the announcement is the one the match had when it was found."
  },
  {
   "property": "C88",
   "status": "proved",
   "theorems": [
    "Yot.C88_warned",
    "Yot.C88_unnoticed",
    "Yot.C88_invalid",
    "Yot.C88_default_level"
   ],
   "note": "For the text of a scalar or comment; the engine is a parameter."
  },
  {
   "property": "C89",
   "status": "partial",
   "theorems": [
    "Yot.C89_result_partial",
    "Yot.C89_run_partial",
    "Yot.C89_add_partial",
    "Yot.C89_command_line_counterexample",
    "Yot.C89_names_differ"
   ],
   "note": "False of the code if there is an overlay on the command line and the file has overlays of its own (C89_command_line_counterexample, a consequence of C34's shared spare room); proved otherwise, for results (C89_result_partial, C89_add_partial) and for the outputs of whole runs under all schedules (C89_run_partial). C89_names_differ: the place of the output does depend on the other files."
  },
  {
   "property": "C90",
   "status": "proved",
   "theorems": [
    "Yot.C90_value_at",
    "Yot.C90_elsewhere",
    "Yot.C90_replace_wins",
    "Yot.C90_delete_wins"
   ],
   "note": "For overlays at paths of names without documentQuery and without injection; C90_replace_wins and C90_delete_wins allow any overlays before."
  },
  {
   "property": "C91",
   "status": "proved",
   "theorems": [
    "Yot.C91_file",
    "Yot.C91_apply",
    "Yot.C91_runtime",
    "Yot.C91_jobs",
    "Yot.C91_written",
    "Yot.C91_merge_elsewhere",
    "Yot.C91_delete_elsewhere",
    "Yot.C91_replace_elsewhere",
    "Yot.C91_any_trees"
   ],
   "note": "Model/Arrays has Content as slices; C91_file relates every run to the heap model, C91_written to the trees the other properties are about, C91_runtime compares two run-times; OwnArrays (no two nodes share an array) is kept by every run and holds of decoded documents (C91_any_trees). Struct copies of overlay values, which are only read, are taken as the value itself."
  },
  {
   "property": "C92",
   "status": "proved",
   "theorems": [
    "Yot.C92_sources",
    "Yot.C92_sources_all",
    "Yot.C92_removed",
    "Yot.C92_plain",
    "Yot.C92_none"
   ],
   "note": "C92_sources (below the document node), C92_sources_all (with it); for remove-comments C92_removed, C92_plain, C92_none. The document node's own comment is not removed (C41)."
  },
  {
   "property": "C93",
   "status": "proved",
   "theorems": [
    "Yot.C93_sources",
    "Yot.C93_plain"
   ],
   "note": "The texts of created paths are those of what buildPath makes of the path (C18-C22 say what that is). The name of an alias counts as a text."
  },
  {
   "property": "C94",
   "status": "proved",
   "theorems": [
    "Yot.C94_each",
    "Yot.C94_order",
    "Yot.C94_merge",
    "Yot.C94_replace",
    "Yot.C94_delete",
    "Yot.C94_combine_adds",
    "Yot.C94_merge_sequences",
    "Yot.C94_merge_nested"
   ],
   "note": "C94_replace, C94_delete (nested places too); C94_each, C94_order, C94_merge, C94_combine_adds (no place inside another). What the provisos exclude: C94_merge_nested (the order matters), C94_merge_sequences."
  },
  {
   "property": "C95",
   "status": "proved",
   "theorems": [
    "Yot.C95_ends",
    "Yot.C95_equal_looks_same",
    "Yot.C95_equal_iff",
    "Yot.C95_no_alias",
    "Yot.C95_targets_count"
   ],
   "note": "C95_ends, C95_equal_looks_same (any graph), C95_equal_iff (values that do not contain themselves), C95_no_alias (agrees with the comparison of trees, C19 and C80). go-cmp's following of pointers is modelled from knowledge of the library."
  },
  {
   "property": "C96",
   "status": "proved",
   "theorems": [
    "Yot.C96_two_merges",
    "Yot.C96_two_overlays",
    "Yot.C96_values_files",
    "Yot.C96_between_counts"
   ],
   "note": "C96_two_merges, C96_two_overlays, C96_values_files; that the proviso is needed: C96_between_counts. Comments and presentation may differ: only data are compared."
  },
  {
   "property": "C97",
   "status": "proved",
   "theorems": [
    "Yot.C97_by_index",
    "Yot.C97_by_document",
    "Yot.C97_index_set",
    "Yot.C97_no_index",
    "Yot.C97_split",
    "Yot.C97_common",
    "Yot.C97_listed_twice"
   ],
   "note": "C97_by_index, C97_by_document, C97_index_set, C97_no_index, C97_split (one file: the outcome is the same, errors and crashes included); C97_common (whole runs). That the proviso is needed: C97_listed_twice."
  },
  {
   "property": "C98",
   "status": "proved",
   "theorems": [
    "Yot.C98_one_each",
    "Yot.C98_order",
    "Yot.C98_related"
   ],
   "note": "C98_one_each, C98_order. That related paths are different: C98_related; that with injection one path found suppresses the others: C72."
  },
  {
   "property": "C99",
   "status": "proved",
   "theorems": [
    "Yot.C99_ends",
    "Yot.C99_leaves",
    "Yot.C99_moment",
    "Yot.C99_other_file",
    "Yot.C99_other_path"
   ],
   "note": "C99_ends, C99_leaves, C99_moment; C99_other_file, C99_other_path for one file or path. The configuration file is an input of its own (Start.fileAt), as are standard input and the environment."
  },
  {
   "property": "C100",
   "status": "proved",
   "theorems": [
    "Yot.C100_ends",
    "Yot.C100_leaves",
    "Yot.C100_files"
   ],
   "note": "C100_ends, C100_leaves, C100_files. The configuration file that is found in the working directory (C81) is an input of its own: it is taken to be the same."
  },
  {
   "property": "C101",
   "status": "proved",
   "theorems": [
    "Yot.C101_same_text",
    "Yot.C101_stdin",
    "Yot.C101_rendered"
   ],
   "note": "C101_same_text, C101_stdin, C101_rendered. Standard input is taken not to be used for anything else."
  }
 ]
}