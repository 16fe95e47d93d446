{
 "claims": [
  {
   "property": "C01",
   "status": "proved",
   "theorems": [
    "Verif.Vm.hits_of_keyword_apart",
    "Verif.Vm.hits_apart_after_reset",
    "Verif.Vm.decreasing_offsets_break_order"
   ],
   "note": "Offsets must not go back; decreasing_offsets_break_order shows why."
  },
  {
   "property": "C02",
   "status": "proved",
   "theorems": [
    "Verif.Vm.reset_is_fresh"
   ],
   "note": "For every program, without hypotheses on it."
  },
  {
   "property": "C03",
   "status": "proved",
   "theorems": [
    "Verif.Vm.hit_windows_inside_data",
    "Verif.Vm.hits_apart_after_reset"
   ],
   "note": ""
  },
  {
   "property": "C04",
   "status": "proved",
   "theorems": [
    "Verif.Fsm.pipeline_cuts_agree",
    "Verif.Compiler.cuts_agree"
   ],
   "note": "For each keyword the hits are the same and in the same order; the order among different keywords may depend on the cut, so altogether the hits are equal as multisets. pipeline_cuts_agree is for programs made from patterns without parallel edges (see C21); cuts_agree for any automaton whose labels guard the keywords."
  },
  {
   "property": "C05",
   "status": "proved",
   "theorems": [
    "Verif.Vm.startsWith_hits_at_start",
    "Verif.Vm.startsWith_leaves_fresh",
    "Verif.Vm.startsWith_on_used_context"
   ],
   "note": ""
  },
  {
   "property": "C06",
   "status": "proved",
   "theorems": [
    "Verif.Vm.return_value_bounds_later_hits"
   ],
   "note": ""
  },
  {
   "property": "C07",
   "status": "proved",
   "theorems": [
    "Verif.Vm.callback_does_not_influence",
    "Verif.Vm.closeOut_callback_matters"
   ],
   "note": ""
  },
  {
   "property": "C08",
   "status": "proved",
   "theorems": [
    "Verif.Fsm.pipeline_hits_match",
    "Verif.Compiler.compiled_hits_are_matches",
    "Verif.Vm.hits_are_matches"
   ],
   "note": "pipeline_hits_match is for programs made from patterns without parallel edges (see C21); compiled_hits_are_matches for any automaton of kind Live; hits_are_matches for any guarded program."
  },
  {
   "property": "C09",
   "status": "partial",
   "theorems": [
    "Verif.Compiler.matches_are_covered_partial",
    "Verif.Fsm.unpumped_covered",
    "Verif.Fsm.bounded_covered",
    "Verif.Compiler.searches_end",
    "Verif.Fsm.determinized_loses_match"
   ],
   "note": "False in general: determinized_loses_match. Proved for automata without a jump-table landing at address 0 (NoZero). A program is affected only if some string can be repeated any number of times before a match of every pattern (unpumped_noZero): not if one pattern has bounded matches (unpumped_of_bounded), no byte begins matches of all (unpumped_of_heads), or the first byte of a pattern's matches is nowhere else in them (unpumped_of_once)."
  },
  {
   "property": "C10",
   "status": "proved",
   "theorems": [
    "Verif.Fsm.pipeline_never_out_of_bounds",
    "Verif.Compiler.compiled_never_out_of_bounds",
    "Verif.Compiler.unlabelled_match_out_of_bounds"
   ],
   "note": "pipeline_never_out_of_bounds is for programs made from patterns without parallel edges (with them no program results, C21). compiled_never_out_of_bounds is for automata in which every way to a match carries a label; without it false (unlabelled_match_out_of_bounds)."
  },
  {
   "property": "C100",
   "status": "partial",
   "theorems": [
    "Verif.Loaded.kept_buffer_partial",
    "Verif.Loaded.session_program_kept_partial",
    "Verif.Loaded.program_file_dangles"
   ],
   "note": "False for the command: loadProgram gives its buffer back before the search starts, so that the whole search reads freed memory (program_file_dangles, finding 65). Proved for callers of lg_read_program that keep the buffer; sizes below 2^31. The Java binding, which has the same fault, is not modelled here."
  },
  {
   "property": "C101",
   "status": "proved",
   "theorems": [
    "Verif.EncTable.encodings_listed",
    "Verif.EncTable.list_unique",
    "Verif.EncTable.listed_selects",
    "Verif.EncTable.plain_listed"
   ],
   "note": "For names without tabs and line breaks; that a listed name selects its encoding is proved when no two encodings have names that differ only in case (otherwise C95's lookup_spec says which counts). plain_listed is the whole list of the build without ICU."
  },
  {
   "property": "C102",
   "status": "proved",
   "theorems": [
    "Verif.Session.session_ends",
    "Verif.Session.requests_end",
    "Verif.Fsm.finalize_ends",
    "Verif.Session.asked_fine"
   ],
   "note": "For texts with a defined parse (C98) whose repetition bounds add up to less than 2^30. No parallel edges: determinization depth 0 or at least the number of states (the default is 2^32 - 1)."
  },
  {
   "property": "C103",
   "status": "proved",
   "theorems": [
    "Verif.Session.fixed_hits",
    "Verif.Session.fixed_accepted",
    "Verif.Session.keywords_found",
    "Verif.Session.keyOf_unique",
    "Verif.Session.leftmost_occurrences"
   ],
   "note": "Length of the keyword below 2^30; accepted in ASCII without ICU only under the name ASCII (C97). keywords_found needs fewer than 2^24 states and patterns and a determinization depth of 0 or at least the number of states."
  },
  {
   "property": "C104",
   "status": "proved",
   "theorems": [
    "Verif.Session.caseless_hits",
    "Verif.Session.caseless_accepted",
    "Verif.Session.folds_plain",
    "Verif.Session.folds_icu",
    "Verif.Session.caselessAt_end"
   ],
   "note": "FoldsIcu says how the folding of the parser uses ICU's closure of a set, which is taken to close sets under an equivalence that has the letters of ASCII (as in C43). Acceptance for keywords below 2^30 bytes."
  },
  {
   "property": "C105",
   "status": "proved",
   "theorems": [
    "Verif.Handles.command_fixed_works",
    "Verif.Handles.command_fixed_hits",
    "Verif.Handles.command_caseless_works",
    "Verif.Handles.command_caseless_hits",
    "Verif.Handles.file_fixed_hits",
    "Verif.Handles.files_work"
   ],
   "note": "Keywords and names of encodings without tabs, line breaks, null characters and (encodings) commas (C76 is false for others); fewer than 2^24 states and patterns, determinization depth 0 or at least the number of states. The printed text is stated with the definitions of C80."
  },
  {
   "property": "C106",
   "status": "partial",
   "theorems": [
    "Verif.Handles.report_partial",
    "Verif.Handles.silent_iff",
    "Verif.Handles.runErrors_length",
    "Verif.Handles.names_undefined",
    "Verif.Handles.option_hides",
    "Verif.Handles.samples_complaint",
    "Verif.Handles.columns_inverted"
   ],
   "note": "Proved for keywords on the command line or in one file; false with several keyword files (names_undefined: a null file name is printed) and after an option that cannot be read (option_hides: earlier errors of the file are lost and leak). samples reports only the first error, always as pattern 0 (samples_complaint)."
  },
  {
   "property": "C107",
   "status": "proved",
   "theorems": [
    "Verif.Session.any_of_hits",
    "Verif.Session.listed_hits",
    "Verif.Fsm.words_stays"
   ],
   "note": "any_of_hits is for texts of strings with | between them (special characters quoted), listed_hits for every text that is parsed into strings, alternatives and strings followed by alternatives. Strings with characters that the encoding does not have are left out of the list."
  },
  {
   "property": "C108",
   "status": "partial",
   "theorems": [
    "Verif.Unparse.written_matches_partial",
    "Verif.Unparse.text_parses",
    "Verif.Unparse.written_differently",
    "Verif.Unparse.codes_written_differently",
    "Verif.Unparse.hyphens_written_differently",
    "Verif.Unparse.brackets_written_differently",
    "Verif.Unparse.classes_written_differently",
    "Verif.Unparse.assertions_not_written"
   ],
   "note": "Proved for Writable trees whose text has no two of - & ~ side by side: characters that need no escape, classes of characters up to U+00FF (or of all above) without the badly placed brackets, no bytes, no assertions. For all that is left out it is false, as the other theorems show."
  },
  {
   "property": "C109",
   "status": "partial",
   "theorems": [
    "Verif.Whole.search_status",
    "Verif.Whole.made_status",
    "Verif.Whole.validate_status",
    "Verif.Whole.validate_status_wrong",
    "Verif.Whole.validate_silent",
    "Verif.Whole.sample_status",
    "Verif.Whole.unknown_command"
   ],
   "note": "Proved for search, graph and program, whenever they come to a defined end (several keyword files with errors: C106; program files: finding 65). False for validate: its status says nothing of the keywords (validate_status, validate_status_wrong); whether it writes nothing does (validate_silent)."
  },
  {
   "property": "C11",
   "status": "partial",
   "theorems": [
    "Verif.Compiler.layout_consistent_partial",
    "Verif.Compiler.codegen_never_ub",
    "Verif.Compiler.encodes_of_small",
    "Verif.Compiler.parallel_edges_overrun"
   ],
   "note": "False for automata with parallel edges (parallel_edges_overrun). Proved for automata without them and with a plain initial state."
  },
  {
   "property": "C110",
   "status": "proved",
   "theorems": [
    "Verif.Whole.lightgrep_fixed",
    "Verif.Whole.lightgrep_caseless",
    "Verif.Chain.capitals_read"
   ],
   "note": "The number of states must be below 2^24 and within the determinization depth (no limit by default), the number of searches below 2^24. lightgrep_hits_partial (C96) says the same of keywords that are not fixed strings."
  },
  {
   "property": "C111",
   "status": "proved",
   "theorems": [
    "Verif.Whole.lightgrep_file_fixed"
   ],
   "note": "One keyword file. The number of states must be below 2^24 and within the determinization depth (no limit by default), the number of searches below 2^24. lightgrep_file_hits_partial (C96) says the same of keywords that are not fixed strings."
  },
  {
   "property": "C112",
   "status": "partial",
   "theorems": [
    "Verif.Graphviz.graphs_alike_partial",
    "Verif.Graphviz.graph_command",
    "Verif.Graphviz.graph_accepts_partial",
    "Verif.Graphviz.graph_read_partial",
    "Verif.Graphviz.graph_shape",
    "Verif.Graphviz.smallest_label",
    "Verif.Graphviz.graphs_ambiguous"
   ],
   "note": "States, edges, their order and the texts of the labels are always determined (graph_shape). Which bytes a state takes is determined if the hyphen, the slash and the backslash are at no end of a range of its bytes; false without that (graphs_ambiguous, finding 77). WF holds of automata made from keywords (Verif.Fsm.Made.facts)."
  },
  {
   "property": "C113",
   "status": "proved",
   "theorems": [
    "Verif.Whole.program_fixed",
    "Verif.Whole.program_caseless",
    "Verif.Whole.program_searched"
   ],
   "note": "The number of states must be below 2^24 and within the determinization depth (no limit by default), the number of searches below 2^24. program_searched is about keywords of any kind. Reading the file back with --program-file is undefined (finding 65)."
  },
  {
   "property": "C114",
   "status": "proved",
   "theorems": [
    "Verif.Listing.listing_read",
    "Verif.Listing.codegen_laid",
    "Verif.Whole.compiled_laid",
    "Verif.Whole.listing_command",
    "Verif.Whole.listing_works",
    "Verif.Whole.listing_file_works",
    "Verif.Whole.listings_alike"
   ],
   "note": "The listing says what the instructions and their operands are. It does not have the prefilter and the numbers of labels and checks, which the binary program has. Bytes are also printed as characters, so that a line break can be in the line of an instruction. The number of states must be below 2^24 and within the determinization depth (no limit by default)."
  },
  {
   "property": "C115",
   "status": "proved",
   "theorems": [
    "Verif.Whole.program_file_fixed",
    "Verif.Session.States.unique"
   ],
   "note": "The number of states must be below 2^24 and within the determinization depth (no limit by default), the number of searches below 2^24, and the written program below 2^31 bytes. For keywords of any kind there is program_file_hits_partial (C96)."
  },
  {
   "property": "C12",
   "status": "partial",
   "theorems": [
    "Verif.Compiler.compiled_language_partial",
    "Verif.Fsm.unpumped_language",
    "Verif.Fsm.unpumped_noZero",
    "Verif.Fsm.unpumped_of_bounded",
    "Verif.Fsm.unpumped_of_heads",
    "Verif.Fsm.unpumped_of_once",
    "Verif.Fsm.bounded_language",
    "Verif.Compiler.compiled_sound",
    "Verif.Compiler.zero_landing_loses_match"
   ],
   "note": "False in general (zero_landing_loses_match). Nothing is added, for every automaton (compiled_sound); nothing is lost for automata without a jump-table landing at address 0 (NoZero). A program is affected only if some string can be repeated any number of times before a match of every pattern (unpumped_noZero): not if one pattern has bounded matches (unpumped_of_bounded), no byte begins matches of all (unpumped_of_heads), or the first byte of a pattern's matches is nowhere else in them (unpumped_of_once)."
  },
  {
   "property": "C13",
   "status": "proved",
   "theorems": [
    "Verif.BestPair.filter_never_rejects",
    "Verif.BestPair.filter_found"
   ],
   "note": ""
  },
  {
   "property": "C14",
   "status": "partial",
   "theorems": [
    "Verif.Compiler.starts_with_agrees",
    "Verif.Fsm.starts_with_partial",
    "Verif.Fsm.unpumped_starts_with",
    "Verif.Fsm.bounded_starts_with",
    "Verif.Fsm.starts_with_misses",
    "Verif.Compiler.filterOff_lt",
    "Verif.Vm.starts_sound"
   ],
   "note": "Whenever some keyword has a match shorter than the buffer (or the buffer has at most one byte), lg_starts_with reports exactly the hits of a search that start at the first byte, so every pattern matching a prefix gets its hit (all sets of patterns that are not pumped; others under NoZero). Without that condition the property is false: starts_with_misses proves the counterexample, keywords ab and ..cd, buffer ab."
  },
  {
   "property": "C15",
   "status": "proved",
   "theorems": [
    "Verif.NfaBuilder.builder_language",
    "Verif.NfaBuilder.pattern_language"
   ],
   "note": "pattern_language starts from the parsed tree and has the exclusions of C18."
  },
  {
   "property": "C16",
   "status": "proved",
   "theorems": [
    "Verif.NfaBuilder.counted_repetition"
   ],
   "note": ""
  },
  {
   "property": "C17",
   "status": "proved",
   "theorems": [
    "Verif.Fsm.add_pattern",
    "Verif.Fsm.add_pattern_ends",
    "Verif.NfaBuilder.refused_iff_empty",
    "Verif.NfaBuilder.pattern_refused_iff_empty",
    "Verif.Handles.keyword_indices"
   ],
   "note": "For trees as the parser and rewriter make them, without look-around. add_pattern includes that a refused pattern leaves the combined automaton unchanged."
  },
  {
   "property": "C18",
   "status": "partial",
   "theorems": [
    "Verif.Regex.rewrites_preserve_language",
    "Verif.Regex.reduce_preserves_language_partial",
    "Verif.Regex.reduce_sub",
    "Verif.Regex.empty_branch_loses_match"
   ],
   "note": "False in general: an alternation whose left branch matches only the empty string is taken for an empty subtree (empty_branch_loses_match). Proved for all other trees with bounds whose sum does not wrap; and for all trees with such bounds rewriting never adds a match (reduce_sub)."
  },
  {
   "property": "C19",
   "status": "partial",
   "theorems": [
    "Verif.Regex.nongreedy_reduction_partial",
    "Verif.Regex.nongreedy_reduction_preferred",
    "Verif.Regex.reduce_places_partial",
    "Verif.Regex.reduce_preferred_partial",
    "Verif.Regex.combine_changes_preferred",
    "Verif.Regex.nested_nongreedy_loses_match"
   ],
   "note": "False for non-greedy repetitions inside a repetition (nested_nongreedy_loses_match). For all other trees both halves are proved of the two reductions: the places where a match begins (nongreedy_reduction_partial) and where the preferred match ends (nongreedy_reduction_preferred). All passes together keep both when no consecutive repetitions are merged (reduce_places_partial, reduce_preferred_partial); merging can move the end (combine_changes_preferred)."
  },
  {
   "property": "C20",
   "status": "proved",
   "theorems": [
    "Verif.Optimizer.merge_language",
    "Verif.Optimizer.merge_combined",
    "Verif.Optimizer.merge_ends",
    "Verif.Fsm.add_pattern",
    "Verif.Fsm.add_all"
   ],
   "note": ""
  },
  {
   "property": "C21",
   "status": "proved",
   "theorems": [
    "Verif.Subset.subset_language",
    "Verif.Subset.subset_shape",
    "Verif.Subset.subset_ends",
    "Verif.Fsm.limited_overruns"
   ],
   "note": "limited_overruns: with a limited depth the construction can make parallel edges, and then code generation overruns."
  },
  {
   "property": "C22",
   "status": "proved",
   "theorems": [
    "Verif.Optimizer.prune_preferred",
    "Verif.Optimizer.prune_ends"
   ],
   "note": ""
  },
  {
   "property": "C23",
   "status": "proved",
   "theorems": [
    "Verif.Label.guards_crossed",
    "Verif.Label.label_guards",
    "Verif.Label.label_language",
    "Verif.Label.label_ends"
   ],
   "note": ""
  },
  {
   "property": "C24",
   "status": "partial",
   "theorems": [
    "Verif.Label.recompile_hangs",
    "Verif.Label.recompile_loses_keyword",
    "Verif.Label.recompile_partial"
   ],
   "note": "False as stated: a second lg_create_program on the same FSM hangs for ab+ and loses the keyword for ab. recompile_partial: when the first labelling changed no label, the second is the same."
  },
  {
   "property": "C25",
   "status": "proved",
   "theorems": [
    "Verif.RangeSet.rangeSet_test",
    "Verif.RangeSet.rangeSet_eq",
    "Verif.RangeSet.rangeSet_queries",
    "Verif.RangeSet.rangeSet_iteration",
    "Verif.RangeSet.rangeSet_fromBits",
    "Verif.RangeSet.rangeSet_fromBits_small_wrong"
   ],
   "note": "The bitset constructor drops a trailing run when the bitset is smaller than the code space (rangeSet_fromBits_small_wrong)."
  },
  {
   "property": "C26",
   "status": "proved",
   "theorems": [
    "Verif.SparseSet.sparseSet_refines_set",
    "Verif.SparseSet.sparseSet_size",
    "Verif.SparseSet.sparseSet_unfilled_unsound"
   ],
   "note": ""
  },
  {
   "property": "C27",
   "status": "proved",
   "theorems": [
    "Verif.ByteSet.byteSet_setRange",
    "Verif.ByteSet.byteSet_reversed_wrong",
    "Verif.ByteSet.byteSet_forEach"
   ],
   "note": "set needs beg <= end; byteSet_reversed_wrong shows what happens otherwise."
  },
  {
   "property": "C28",
   "status": "proved",
   "theorems": [
    "Verif.VectorFamily.vectorFamily_refines_lists"
   ],
   "note": ""
  },
  {
   "property": "C29",
   "status": "proved",
   "theorems": [
    "Verif.Transition.smallest_transition_exact",
    "Verif.Transition.getSmallest_allowed",
    "Verif.Transition.factory_get_allowed"
   ],
   "note": ""
  },
  {
   "property": "C30",
   "status": "proved",
   "theorems": [
    "Verif.Utf.utf8_inverse"
   ],
   "note": ""
  },
  {
   "property": "C31",
   "status": "proved",
   "theorems": [
    "Verif.Utf.utf16_inverse",
    "Verif.Utf.utf32_inverse"
   ],
   "note": ""
  },
  {
   "property": "C32",
   "status": "proved",
   "theorems": [
    "Verif.Encoders.utf_class_exact",
    "Verif.Encoders.ascii_class_exact",
    "Verif.Encoders.base_class_exact",
    "Verif.Encoders.class_exact",
    "Verif.Encoders.leaf_exact",
    "Verif.Encoders.leaves_exact"
   ],
   "note": "For ASCII, UTF-8, UTF-16 and UTF-32 in both byte orders; class_exact, leaf_exact and leaves_exact also for ICU's encodings (any converter that meets Converter.Ok) and for byte transforms and rotations around any of them."
  },
  {
   "property": "C33",
   "status": "proved",
   "theorems": [
    "Verif.Encoders.collapsing_keeps_strings"
   ],
   "note": "For sequences no longer than the encoder's maximum, as the encoders make them."
  },
  {
   "property": "C34",
   "status": "partial",
   "theorems": [
    "Verif.Transforms.byteTransform_undone",
    "Verif.Transforms.byteChain_undone",
    "Verif.Transforms.rot_undone_partial",
    "Verif.Transforms.rot_large_not_undone",
    "Verif.Transforms.rotEncoder_roundTrip_partial",
    "Verif.Transforms.byteEncoder_read_ignores",
    "Verif.Transforms.byteEncoder_write_undone"
   ],
   "note": "Byte transforms proved. Rotations only up to 26 places (rot_large_not_undone refutes the rest). Reading through a byte-transforming encoder ignores its input (byteEncoder_read_ignores)."
  },
  {
   "property": "C35",
   "status": "proved",
   "theorems": [
    "Verif.Decoders.decoder_stream",
    "Verif.Decoders.decoded_unique",
    "Verif.Decoders.icu_stream"
   ],
   "note": "decoder_stream is about the library's own decoders under byte transforms and rotations, icu_stream about ICU's (see C94)."
  },
  {
   "property": "C36",
   "status": "partial",
   "theorems": [
    "Verif.Decoders.window_decodes_partial",
    "Verif.Decoders.window_trailing",
    "Verif.Decoders.window_bad_count_partial",
    "Verif.Decoders.window_bad_count_wrong",
    "Verif.Decoders.icu_window_decodes_partial",
    "Verif.Decoders.icu_window_bad_count_partial",
    "Verif.Decoders.icu_window_bad_count_wrong"
   ],
   "note": "The returned count is wrong whenever there is no leading context (window_bad_count_wrong); the window itself and the count in the other cases are proved, for the library's own encodings and for ICU's."
  },
  {
   "property": "C37",
   "status": "proved",
   "theorems": [
    "Verif.Marshal.write_read",
    "Verif.Loaded.session_write_read",
    "Verif.Stored.compiled_storable"
   ],
   "note": "Sizes below 2^31 (the sizes are added up in an int and passed as one). compiled_storable shows that every compiled program fits in the format."
  },
  {
   "property": "C38",
   "status": "proved",
   "theorems": [
    "Verif.Marshal.truncated_refused",
    "Verif.Marshal.malformed_not_refused"
   ],
   "note": "Truncations are refused; other malformed input is not, and is read out of bounds (malformed_not_refused)."
  },
  {
   "property": "C39",
   "status": "proved",
   "theorems": [
    "Verif.Handles.keyword_indices"
   ],
   "note": ""
  },
  {
   "property": "C40",
   "status": "proved",
   "theorems": [
    "Verif.Handles.program_list_frozen"
   ],
   "note": ""
  },
  {
   "property": "C41",
   "status": "partial",
   "theorems": [
    "Verif.Handles.pattern_list_partial",
    "Verif.Handles.pattern_list_never_reports_success",
    "Verif.Handles.pattern_list_needs_error_argument"
   ],
   "note": "The effects on the keyword list are proved; the return value is always failure (pattern_list_never_reports_success) and a null error argument is dereferenced when a line has an error (pattern_list_needs_error_argument)."
  },
  {
   "property": "C42",
   "status": "proved",
   "theorems": [
    "Verif.ParseUtil.numeric_escape"
   ],
   "note": "Names resolved by ICU are a parameter."
  },
  {
   "property": "C43",
   "status": "proved",
   "theorems": [
    "Verif.ParseUtil.case_folding",
    "Verif.ParseUtil.case_folding_icu"
   ],
   "note": "ICU's own closure is a hypothesis of case_folding_icu."
  },
  {
   "property": "C44",
   "status": "partial",
   "theorems": [
    "Verif.Cmd.context_lines_partial",
    "Verif.Cmd.context_lines_overflow"
   ],
   "note": "Proved for fewer than 2^31-1 context lines; with exactly 2^31-1 the property is false (context_lines_overflow)."
  },
  {
   "property": "C45",
   "status": "proved",
   "theorems": [
    "Verif.Cmd.search_file",
    "Verif.Cmd.search_file_ends",
    "Verif.Cmd.search_mapped_file",
    "Verif.Cmd.block_size_zero"
   ],
   "note": "Block size zero searches nothing (block_size_zero)."
  },
  {
   "property": "C46",
   "status": "proved",
   "theorems": [
    "Verif.Cmd.histogram_order",
    "Verif.Cmd.histogram_counts"
   ],
   "note": ""
  },
  {
   "property": "C47",
   "status": "proved",
   "theorems": [
    "Verif.Regex.zero_length_test",
    "Verif.Regex.zero_length_test_root"
   ],
   "note": ""
  },
  {
   "property": "C48",
   "status": "proved",
   "theorems": [
    "Verif.Sequences.removeRightDuplicates_first",
    "Verif.Sequences.removeRightDuplicates_set"
   ],
   "note": ""
  },
  {
   "property": "C49",
   "status": "partial",
   "theorems": [
    "Verif.Utf.patternText_decodes",
    "Verif.Utf.patternText_overruns",
    "Verif.Utf.patternText_inside_partial"
   ],
   "note": "False in general: a pattern text ending in a truncated UTF-8 sequence is read past its end (patternText_overruns); proved for texts without one."
  },
  {
   "property": "C50",
   "status": "proved",
   "theorems": [
    "Verif.Cmd.printed_text"
   ],
   "note": ""
  },
  {
   "property": "C51",
   "status": "proved",
   "theorems": [
    "Verif.ParseUtil.builtin_classes"
   ],
   "note": "Outside ASCII mode \\d and \\w are ICU's sets, which are parameters of the model; the property does not speak about them."
  },
  {
   "property": "C52",
   "status": "partial",
   "theorems": [
    "Verif.Compiler.hits_leftmost_partial",
    "Verif.Fsm.unpumped_hits",
    "Verif.Fsm.bounded_hits",
    "Verif.Compiler.searches_end",
    "Verif.Fsm.determinized_loses_match"
   ],
   "note": "False in general: determinized_loses_match. Proved for automata with guarding labels without a jump-table landing at address 0 (NoZero). A program is affected only if some string can be repeated any number of times before a match of every pattern (unpumped_noZero): not if one pattern has bounded matches (unpumped_of_bounded), no byte begins matches of all (unpumped_of_heads), or the first byte of a pattern's matches is nowhere else in them (unpumped_of_once)."
  },
  {
   "property": "C53",
   "status": "partial",
   "theorems": [
    "Verif.Compiler.hits_preferred_partial",
    "Verif.Fsm.unpumped_preferred",
    "Verif.Fsm.bounded_preferred",
    "Verif.Compiler.preferred_unique"
   ],
   "note": "Proved for automata with guarding labels without a jump-table landing at address 0 (NoZero); without that false as in C52. A program is affected only if some string can be repeated any number of times before a match of every pattern (unpumped_noZero): not if one pattern has bounded matches (unpumped_of_bounded), no byte begins matches of all (unpumped_of_heads), or the first byte of a pattern's matches is nowhere else in them (unpumped_of_once)."
  },
  {
   "property": "C54",
   "status": "partial",
   "theorems": [
    "Verif.Fsm.finalized_hits_partial",
    "Verif.Fsm.unpumped_hits",
    "Verif.Fsm.unpumped_noZero",
    "Verif.Fsm.bounded_hits",
    "Verif.Fsm.bounded_noZero",
    "Verif.Fsm.finalized_parallel",
    "Verif.Fsm.finalize_throws",
    "Verif.Fsm.finalize_ends",
    "Verif.Fsm.finalized_search_ends",
    "Verif.Fsm.determinized_loses_match",
    "Verif.Fsm.limited_overruns",
    "Verif.Fsm.pattern_hits_partial",
    "Verif.Fsm.adding_ends",
    "Verif.Fsm.search_ends"
   ],
   "note": "The full statement is false (determinized_loses_match: with the default determinization a leftmost match is lost to the landing-address defect; limited_overruns: depth 1 makes the compiler write out of bounds).  Proved for patterns given as rewritten trees without look-around, any determinization depth, patterns that are not pumped (unpumped_hits), or automata without a jump-table landing at address 0, and without parallel edges (proved absent when the depth is 0 or at least the number of states). A program is affected only if some string can be repeated any number of times before a match of every pattern (unpumped_noZero): not if one pattern has bounded matches (unpumped_of_bounded), no byte begins matches of all (unpumped_of_heads), or the first byte of a pattern's matches is nowhere else in them (unpumped_of_once)."
  },
  {
   "property": "C55",
   "status": "partial",
   "theorems": [
    "Verif.Optimizer.merge_reorders",
    "Verif.Optimizer.prune_preferred",
    "Verif.Optimizer.merge_keeps",
    "Verif.Optimizer.merge_orderly"
   ],
   "note": "False as stated: merge_reorders is a pattern whose preferred match changes on merging. The patterns already in the FSM always keep their preferences (merge_keeps); the new one keeps its own if the states of its automaton that may be taken for the same have no common successor and no cycle leads to them (merge_orderly). Pruning keeps preferences (prune_preferred); leftmost starts are kept (C54)."
  },
  {
   "property": "C56",
   "status": "proved",
   "theorems": [
    "Verif.Encoders.cache_keeps_answers",
    "Verif.Encoders.anyEntry_answers",
    "Verif.Encoders.leaf_exact"
   ],
   "note": ""
  },
  {
   "property": "C57",
   "status": "proved",
   "theorems": [
    "Verif.Decoders.hit_context_text",
    "Verif.Decoders.icu_hit_context_text"
   ],
   "note": "The entries themselves are described by C36."
  },
  {
   "property": "C58",
   "status": "proved",
   "theorems": [
    "Verif.Parser.parse_iff_derives"
   ],
   "note": "On token sequences; the LALR automaton is replaced by recursive descent and the conflicts resolved by shifting are written into the grammar."
  },
  {
   "property": "C59",
   "status": "partial",
   "theorems": [
    "Verif.Parser.error_range_in_pattern",
    "Verif.Parser.empty_pattern_error"
   ],
   "note": "False for the empty pattern (empty_pattern_error); proved for all others."
  },
  {
   "property": "C60",
   "status": "proved",
   "theorems": [
    "Verif.Parser.fixed_text",
    "Verif.Parser.fixed_text_cased",
    "Verif.Parser.fixed_refused"
   ],
   "note": "Case-insensitively for builds without ICU's case folding and for encodings that have the Latin letters; case-sensitively for all."
  },
  {
   "property": "C61",
   "status": "proved",
   "theorems": [
    "Verif.Parser.quoted_is_fixed"
   ],
   "note": ""
  },
  {
   "property": "C62",
   "status": "proved",
   "theorems": [
    "Verif.Parser.plain_text"
   ],
   "note": "Case-insensitively for builds without ICU's case folding and for encodings that have the Latin letters; case-sensitively for all."
  },
  {
   "property": "C63",
   "status": "proved",
   "theorems": [
    "Verif.Text.shortcuts_are_sound"
   ],
   "note": "For every environment of the parser whose tables are well-formed (Env.Sound), in particular the build without ICU."
  },
  {
   "property": "C64",
   "status": "proved",
   "theorems": [
    "Verif.Text.nodes_fit",
    "Verif.Text.upper_bound_is_none"
   ],
   "note": "For patterns that parse. The function called nodesUpperBound is not an upper bound (upper_bound_is_none: \\b), the doubling in ParseTree::init saves it."
  },
  {
   "property": "C65",
   "status": "proved",
   "theorems": [
    "Verif.Chain.chain_meaning",
    "Verif.Chain.plain_names",
    "Verif.Chain.ascii_names_refused",
    "Verif.Chain.factory_init",
    "Verif.Chain.factory_put"
   ],
   "note": "For the library with and without ICU: Build is the table of encodings and ICU's converters, which are arbitrary but for the assumptions stated in Build (met by Build.plain and by EncTable.build). Reads is the specification of a chain; plain_names lists the names there are without ICU. Without ICU, chains that name ASCII by other spellings than ASCII are refused (ascii_names_refused); the theorem states that exception."
  },
  {
   "property": "C66",
   "status": "proved",
   "theorems": [
    "Verif.Chain.chain_decodes"
   ],
   "note": "With and without ICU; of a converter it is assumed that it reads back the characters it writes, whatever follows (Converter.Reads)."
  },
  {
   "property": "C67",
   "status": "proved",
   "theorems": [
    "Verif.Session.text_hits_match",
    "Verif.Session.sample_compiled"
   ],
   "note": "For patterns whose repetition bounds add up to less than about 2^29. Parallel edges, which only a limited determinization depth makes, are excluded (Compiled.nodup; they overrun a table, see C52)."
  },
  {
   "property": "C68",
   "status": "partial",
   "theorems": [
    "Verif.Session.text_hits_partial",
    "Verif.Session.unpumped_text_hits",
    "Verif.Session.unpumped_noZero",
    "Verif.Session.unpumped_of_bounded",
    "Verif.Session.unpumped_of_heads",
    "Verif.Session.bounded_text_hits",
    "Verif.Session.sample_compiled"
   ],
   "note": "Proved for patterns without non-greedy repetitions inside repetitions and without a branch that is only {0} before a bar, as in (a{0}|b)c (the rewriter loses matches for these, C18 and C19), unless some string can be repeated any number of times before a match of every such pattern (unpumped_text_hits; then matches can be lost, C52). The pattern may be one of many."
  },
  {
   "property": "C69",
   "status": "proved",
   "theorems": [
    "Verif.Meaning.class_meaning",
    "Verif.Meaning.plain_reading",
    "Verif.Meaning.union_order_matters"
   ],
   "note": "For any table of named classes and case folding that agrees with its reading; plain_reading shows that the build without ICU does. union_order_matters shows a consequence that may surprise: whether bytes are added or taken away is decided by the first operand, so union does not commute."
  },
  {
   "property": "C70",
   "status": "proved",
   "theorems": [
    "Verif.Meaning.text_meaning",
    "Verif.Meaning.text_says_once",
    "Verif.Meaning.hits_are_asked_for",
    "Verif.Meaning.asked_for_is_hit",
    "Verif.Meaning.plain_reading"
   ],
   "note": "Lookarounds are refused later (C59). The converse for hits, asked_for_is_hit, has the conditions of C68."
  },
  {
   "property": "C71",
   "status": "proved",
   "theorems": [
    "Verif.Lexer.tokens_iff",
    "Verif.Lexer.made_of_once",
    "Verif.Lexer.text_says_iff",
    "Verif.Lexer.text_meaning",
    "Verif.Lexer.asks_iff",
    "Verif.Lexer.number_iff"
   ],
   "note": "For every table of names and properties that does not give back more text than it got (as plain_shortens shows of the build without ICU)."
  },
  {
   "property": "C72",
   "status": "proved",
   "theorems": [
    "Verif.Parser.error_names_fault",
    "Verif.Parser.tokens_doomed",
    "Verif.Parser.text_doomed",
    "Verif.Parser.nothing_says"
   ],
   "note": "For tables of names and properties as in C71. The empty text is reported at the range 0 to 1 (see C59)."
  },
  {
   "property": "C73",
   "status": "proved",
   "theorems": [
    "Verif.NfaBuilder.built_prefers",
    "Verif.NfaBuilder.pruned_prefers",
    "Verif.NfaBuilder.preferred_iff_follow",
    "Verif.NfaBuilder.ends_reorder",
    "Verif.NfaBuilder.rounds_reorder"
   ],
   "note": "For trees as they come out of the rewriter, without look-around. Merging automata can change preferences (C55)."
  },
  {
   "property": "C74",
   "status": "partial",
   "theorems": [
    "Verif.Fsm.hits_backtrack_partial",
    "Verif.Fsm.unpumped_backtrack_partial",
    "Verif.Fsm.clear_stays",
    "Verif.Fsm.words_stays",
    "Verif.Fsm.hits_same_partial",
    "Verif.Fsm.add_all_preferred",
    "Verif.Fsm.finalize_preferred",
    "Verif.Subset.subset_preferred",
    "Verif.NfaBuilder.label_preferred"
   ],
   "note": "All hypotheses are needed because the code is wrong without them: Backtracks (ends_reorder, rounds_reorder), Stays (merge_reorders), NoZero (determinized_loses_match) or patterns that are not pumped (unpumped_backtrack_partial), no parallel edges (limited_overruns; always so with the default depth, finalized_parallel). Stays is proved for patterns in which no two leaves that may come next begin with the same set of bytes (clear_stays) and for alternatives of strings (words_stays). Look-around is not included."
  },
  {
   "property": "C75",
   "status": "partial",
   "theorems": [
    "Verif.MatchGen.samples_match_partial",
    "Verif.MatchGen.samples_contain_partial",
    "Verif.MatchGen.sample_no_match",
    "Verif.MatchGen.samples_hang",
    "Verif.MatchGen.samples_no_loops",
    "Verif.MatchGen.samples_no_patterns"
   ],
   "note": "False as stated: sample_no_match is a sample that does not match, samples_hang a walk that never ends, and a loop limit of 0 or no keywords access an empty vector. Proved in full for keywords with bounded matches; for all keywords a match is inside each sample. Where the matches are unbounded, when exactly a walk ends is not characterized."
  },
  {
   "property": "C76",
   "status": "partial",
   "theorems": [
    "Verif.Handles.command_line_partial",
    "Verif.Handles.files_in_order",
    "Verif.Handles.tab_ignores_all",
    "Verif.Handles.break_splits",
    "Verif.Handles.empty_shifts"
   ],
   "note": "False as stated: a keyword with a tab makes all keywords be ignored, one with a line break is taken for two, and for an empty one the encoding is taken for the keyword. Proved for all keywords without tab, CR, LF and NUL that are not empty, and encodings without commas. The parsing of the command line itself is not modelled."
  },
  {
   "property": "C77",
   "status": "proved",
   "theorems": [
    "Verif.Compiler.resolve_agrees",
    "Verif.Compiler.resolve_covers_partial",
    "Verif.Fsm.unpumped_resolve"
   ],
   "note": "resolve_agrees is the property, for every compiled program. resolve_covers_partial and unpumped_resolve add that no match begun is missed, which needs NoZero or patterns that are not pumped, as in C09."
  },
  {
   "property": "C78",
   "status": "partial",
   "theorems": [
    "Verif.Session.text_backtrack_partial",
    "Verif.Session.unpumped_text_backtrack_partial",
    "Verif.Session.clear_text_backtrack_partial",
    "Verif.Session.chars_prefix"
   ],
   "note": "Missing: texts with neighbouring repetitions of the same thing, for which it is false (combine_changes_preferred), automata that do not stay in order when merged (as in C74), and requests that are pumped (see C68). clear_text_backtrack_partial says of the text, not of the automaton, when the order is kept: characters and classes of one-byte characters, and alternatives that begin differently or are sequences. What is repeated and how a match ends is asked of the rewritten text."
  },
  {
   "property": "C79",
   "status": "partial",
   "theorems": [
    "Verif.Cmd.hit_text_partial",
    "Verif.Cmd.context_text_partial",
    "Verif.Cmd.mapped_hit_text",
    "Verif.Cmd.mapped_histogram",
    "Verif.Cmd.icu_hit_text",
    "Verif.Cmd.icu_mapped_hit_text",
    "Verif.Cmd.earlier_hit_outside",
    "Verif.Cmd.plus_read_outside"
   ],
   "note": "False as stated for files that are not memory mapped: a hit reported at the end of the search, or begun in an earlier block, is read from memory before the current buffer (plus_read_outside). Proved for hits in the current buffer and for memory mapped files; for ICU's encodings the text of the hit but not that of the lines around it. Numbers of lines are below 2^31 - 1."
  },
  {
   "property": "C80",
   "status": "proved",
   "theorems": [
    "Verif.Cmd.inputs_searched_alone",
    "Verif.Cmd.hit_columns",
    "Verif.Cmd.context_columns",
    "Verif.Cmd.walk_visits_all",
    "Verif.Cmd.command_ends",
    "Verif.Cmd.file_blocks"
   ],
   "note": "Not modelled: read errors in the middle of a file, links to directories. inputs_searched_alone is about every program and run that ends; command_ends shows that compiled ones end. hit_columns says what a printed line holds."
  },
  {
   "property": "C81",
   "status": "proved",
   "theorems": [
    "Verif.Cmd.stdin_once",
    "Verif.Cmd.stdin_searched",
    "Verif.Cmd.list_lines"
   ],
   "note": "stdin_searched is about - where the current directory has no directory of that name (finding 40). list_lines says which inputs a list of inputs names."
  },
  {
   "property": "C82",
   "status": "proved",
   "theorems": [
    "Verif.Cmd.options_meaning",
    "Verif.Cmd.options_style",
    "Verif.Cmd.context_not_mapped"
   ],
   "note": "How the command line is cut into options (boost) is not modelled. context_not_mapped is a gap in what the check is for: - in a list is searched unmapped although context is asked for."
  },
  {
   "property": "C83",
   "status": "partial",
   "theorems": [
    "Verif.Java.search_array",
    "Verif.Java.search_buffer",
    "Verif.Java.search_buffer_position",
    "Verif.Java.read_only_buffer_moves",
    "Verif.Java.hit_context_array_partial",
    "Verif.Java.hit_context_buffer_partial",
    "Verif.Java.hit_context_destroyed_decoder",
    "Verif.Java.hit_context_overflow"
   ],
   "note": "Proved in full for searches. For hit contexts a destroyed decoder is not noticed and dereferenced (hit_context_destroyed_decoder), and a hit at the very end of the range of long is refused (hit_context_overflow); otherwise proved. A read-only heap buffer's position is moved (read_only_buffer_moves). startsWith has the same checks as search. The JVM's own part of JNI is taken to work as specified."
  },
  {
   "property": "C84",
   "status": "partial",
   "theorems": [
    "Verif.Java.java_handles_partial",
    "Verif.Java.destroy_twice",
    "Verif.Java.destroy_keeps",
    "Verif.Java.close_all_frees",
    "Verif.Java.destroyed_decoder_used"
   ],
   "note": "False for decoders: LGUtil.getHitContext uses a destroyed one (destroyed_decoder_used). Proved for all histories without that. One thread at a time."
  },
  {
   "property": "C85",
   "status": "partial",
   "theorems": [
    "Verif.Java.write_program_partial",
    "Verif.Java.write_program_large",
    "Verif.Java.read_program_fails",
    "Verif.Java.read_program_wild"
   ],
   "note": "Writing is proved for programs below 2^31 bytes; larger ones are written past the array (write_program_large). Reading never works: the constructor it calls is never looked up and does not exist (read_program_fails, read_program_wild)."
  },
  {
   "property": "C86",
   "status": "partial",
   "theorems": [
    "Verif.Java.user_index_roundtrip",
    "Verif.Java.hit_numbers",
    "Verif.Java.search_result_partial",
    "Verif.Java.search_result_truncated"
   ],
   "note": "False for the result of a search, which is an int in Java: offsets from 2^31 on are truncated (search_result_truncated)."
  },
  {
   "property": "C87",
   "status": "partial",
   "theorems": [
    "Verif.JavaText.pattern_text_partial",
    "Verif.JavaText.pattern_text_refused",
    "Verif.JavaText.supplementary_refused",
    "Verif.JavaText.text_to_java_partial",
    "Verif.JavaText.context_to_java_partial",
    "Verif.JavaText.context_positions",
    "Verif.JavaText.newString_unique",
    "Verif.JavaText.supplementary_to_java"
   ],
   "note": "False for characters outside the basic plane: patterns with them are refused (supplementary_refused), and text with them is handed to JNI in a form it does not define (supplementary_to_java). False for positions of hits unless what precedes is ASCII (context_positions). Proved for all other text."
  },
  {
   "property": "C88",
   "status": "partial",
   "theorems": [
    "Verif.Java.determinize_off_partial",
    "Verif.Java.determinize_on_overruns"
   ],
   "note": "False with the option: it asks for depth 1, for which the compiler can write out of bounds (determinize_on_overruns). Without it programs have no parallel edges, which is what the theorems of C54 and C68 ask for."
  },
  {
   "property": "C89",
   "status": "proved",
   "theorems": [
    "Verif.Malformed.accepted_wellformed",
    "Verif.Malformed.malformed_refused"
   ],
   "note": "For every table of names that accepts only names of ASCII characters, as prepareStringForICU makes sure of (plain_namesAscii for the build without ICU). That a text which stops in the middle of a character is read past its end is finding C49."
  },
  {
   "property": "C90",
   "status": "proved",
   "theorems": [
    "Verif.Python.buffers_alone",
    "Verif.Python.counts_tally",
    "Verif.Python.buffer_after_search"
   ],
   "note": "On a context that is in the middle of a search searchBuffer reports also matches begun before (buffer_after_search): it resets after searching, not before."
  },
  {
   "property": "C91",
   "status": "proved",
   "theorems": [
    "Verif.Python.hits_named",
    "Verif.Python.patterns_added",
    "Verif.Python.null_cuts"
   ],
   "note": "pattern and encChain are the texts up to a null character: a pattern with one is cut there without complaint (null_cuts). The hypotheses about the program and the requests are those of C67."
  },
  {
   "property": "C92",
   "status": "proved",
   "theorems": [
    "Verif.Python.python_handles",
    "Verif.Python.closed_refused",
    "Verif.Python.close_closes",
    "Verif.Python.buffer_whole",
    "Verif.Python.half_searched"
   ],
   "note": "Callbacks that close the handles of the running search are not modelled. Of a buffer whose items have several bytes only a part is searched (half_searched)."
  },
  {
   "property": "C93",
   "status": "proved",
   "theorems": [
    "Verif.Python.context_to_python",
    "Verif.JavaText.context_positions"
   ],
   "note": "ctypes and bytes.decode as documented. context_positions holds for every replacement character and is stated for hitContext itself; the binding passes its positions on."
  },
  {
   "property": "C94",
   "status": "proved",
   "theorems": [
    "Verif.Decoders.icu_stream",
    "Verif.Decoders.converted_unique",
    "Verif.Decoders.converted_text"
   ],
   "note": "What ICU's converters read is arbitrary; the assumptions are in Converter.Reads."
  },
  {
   "property": "C95",
   "status": "proved",
   "theorems": [
    "Verif.EncTable.tables_spec",
    "Verif.EncTable.lookup_spec",
    "Verif.EncTable.never_replaced",
    "Verif.EncTable.sample_encoder"
   ],
   "note": "The text of the header around the tables is not modelled. The preference among standards that the program means to apply never takes effect (never_replaced, finding 60)."
  },
  {
   "property": "C96",
   "status": "partial",
   "theorems": [
    "Verif.Handles.command_hits_partial",
    "Verif.Handles.file_hits_partial",
    "Verif.Handles.command_works",
    "Verif.Handles.files_work",
    "Verif.Handles.command_compiled",
    "Verif.Handles.files_compiled",
    "Verif.Handles.one_items",
    "Verif.Session.text_hits_at",
    "Verif.Whole.lightgrep_hits_partial",
    "Verif.Whole.lightgrep_file_hits_partial",
    "Verif.Whole.program_hits_partial",
    "Verif.Whole.program_file_hits_partial"
   ],
   "note": "Missing: keywords with a branch that is only {0} before a bar or with non-greedy repetitions in repetitions, and sets of keywords that are pumped (for these matches can be lost, C18, C52); keywords on the command line with tabs or line breaks (C76 is false for them). The printed text is stated with the definitions of C80."
  },
  {
   "property": "C97",
   "status": "partial",
   "theorems": [
    "Verif.Session.accepted_iff_partial",
    "Verif.Session.request_decided",
    "Verif.Session.dropped_unchecked",
    "Verif.Regex.reduce_leaves_all",
    "Verif.Regex.reduce_nil"
   ],
   "note": "For patterns with non-greedy repetitions or {0} the equivalence is false, as dropped_unchecked shows: a\u00e9*? is accepted in ASCII. Proved for every pattern: an acceptable one is accepted, and an accepted one can be read, has no lookaround, names a known encoding and does not match the empty string. The sum of the repetition bounds is below 2^30."
  },
  {
   "property": "C98",
   "status": "partial",
   "theorems": [
    "Verif.Defined.parsing_defined_partial",
    "Verif.Defined.count_overflows",
    "Verif.Defined.truncated_undefined"
   ],
   "note": "False for numbers of 2^31 or more behind { or , (count_overflows: signed overflow), and for texts that stop inside a UTF-8 sequence (truncated_undefined, C49). Proved for all other texts; Total says that ICU has a set for each property it knows and folds every set."
  },
  {
   "property": "C99",
   "status": "partial",
   "theorems": [
    "Verif.Cmd.histogram_file",
    "Verif.Cmd.table_unique",
    "Verif.Cmd.histogram_readable_partial",
    "Verif.Cmd.histogram_ambiguous",
    "Verif.Cmd.tally_unique",
    "Verif.Cmd.histogram_order_open"
   ],
   "note": "False for texts with backslashes: a line break and a backslash followed by n look the same (histogram_ambiguous). The order of lines is open when two keywords have the same number, as the lines of different keyword files have (histogram_order_open); otherwise tally_unique. When an input cannot be opened the file is left empty (in histogram_file)."
  }
 ]
}