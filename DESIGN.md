# Formal model of lightgrep in Lean 4

This file says what is modelled, how each property of `properties.jsonl` is
stated and proved, what has to be trusted, and what was found out about the
code.

## Trusted base

* Lean 4.33.0's kernel.
* The axioms `propext`, `Classical.choice`, `Quot.sound`, at most.  No axiom is
  added, there is no `sorry`, no `native_decide`, no `bv_decide`.  Concrete
  examples and counterexamples are evaluated with `decide +kernel`, that is, by
  the kernel.  `#print axioms` on any theorem named in `MANIFEST.json` shows a
  subset of the three.
* The reading of the C++ source: the model is a hand translation.  Every
  definition cites the file and lines it models and says where it simplifies.
* The C++ language rules as used in the reading (order of evaluation,
  initializer lists, unsigned wrap-around).  Undefined behaviour that was noticed
  is an explicit outcome (`ub`, `none`) and not silently excluded.

## Layout

* `lean/Verif/<Area>.lean` — executable model of one area, with helper lemmas.
* `lean/Verif/Props/<Area>.lean` — the property theorems, with a small separate
  specification and a concrete non-trivial instance beside each theorem.
* `MANIFEST.json` — property → theorem names.
* `seeded/LOG.jsonl` — deliberately wrong models and the theorems that caught
  them.

## What is modelled

| Module | Code | Simplifications |
|--------|------|-----------------|
| `Utf` | include/decoders/utf8.h, utf16.h, utf32.h, src/lib/utf8.cpp and the pattern decoder of include/utility.h, unicode.h | bytes are naturals below 256 |
| `Parser`, `ParseUtil` | src/lib/re_grammar.ypp, parseutil.h/.cpp | the Bison automaton is replaced by recursive descent, proved equivalent to the productions (C58); the lexer is a separate pass; ICU lookups are parameters (`Env`) |
| `Text` | src/lib/parser.cpp, parsetree.cpp | none |
| `Unparse` | src/lib/unparser.cpp, `repetition` of parsenode.cpp | a byte set is a predicate |
| `Regex` | include/parsenode.h, src/lib/rewriter.cpp | a pass returns the new subtree instead of splicing in place |
| `RangeSet`, `ByteSet`, `SparseSet`, `VectorFamily`, `Sequences` | the header of the same name | `std::bitset` layout; lower_bound by its specification |
| `Transforms`, `Encoders`, `Chain` | include/encoders/*, src/lib/encoderbase.cpp, utfbase.cpp, utf8.cpp, ascii.cpp, oceencoder.cpp, encoderfactory.cpp, chain.cpp | ICU's converters are arbitrary functions (`Converter`); the cached tables written as initializer lists are read as constants |
| `Decoders` | include/decoders/*, src/lib/decoders/*, lg_read_window, lg_hit_context | ICU's converters are arbitrary functions |
| `Converter`, `EncTable` | src/lib/icuconverter.cpp, icuencoder.cpp, src/enc/encodings.cpp | what ICU answers is arbitrary, with the assumptions below; failures of ICU end the generator |
| `Graph`, `NfaBuilder` | include/graph.h, fragment.h, src/lib/nfabuilder.cpp | edges are neighbour entries; leaves are encoded before the builder runs |
| `Optimizer`, `Label`, `Subset`, `Fsm` | src/lib/nfaoptimizer.cpp, fsmthingy.cpp | loops have a step budget, and it is proved that a sufficient one exists |
| `Transition`, `Compiler`, `BestPair` | include/states.h, src/lib/states.cpp, codegen.cpp, compiler.cpp, instructions.cpp, utility.cpp | sizes do not wrap at 2^32 |
| `Vm` | src/lib/vm.cpp | offsets do not wrap at 2^64; sparse sets are lists of members (refined in `SparseSet`) |
| `Marshal` | src/lib/program.cpp, pattern_map.cpp, lightgrep_c_api.cpp (write/read program) | little-endian machine |
| `Handles`, `PatternList`, `Session` | src/lib/lightgrep_c_api.cpp, pattern_map.cpp | in `Handles` the automaton is a parameter; in `Session` it is the real one and the pattern map is reduced to its length |
| `MatchGen` | src/lib/matchgen.cpp, on the finalized automaton | random numbers are a parameter; their distribution is not modelled |
| `CmdLine` | src/cmd/options.cpp getPatternLines, src/cmd/lg_app.cpp parsePatterns | the command line parser is not modelled |
| `Report` | src/lib/errors.cpp, src/lib/c_api_util.cpp makeError, the errors of lg_add_pattern_list, validate of src/cmd/main.cpp | objects are addresses on a heap; the texts of the exceptions are a parameter |
| `CmdEngine` | src/cmd/lg_app.cpp parsePatterns with the engine behind the handles; lg_create_program | as for `Session`, `Subset`, `Compiler` |
| `Whole` | src/cmd/optparser.cpp parse_opts behind boost's parser, src/cmd/options.cpp, src/cmd/main.cpp main | what boost makes of the arguments is given; `--verbose`, and the output of the commands other than `search`, `graph` and `program`, are left out; a program file that can be opened is undefined (finding 65) |
| `Listing` | src/lib/program.cpp operator<<, src/lib/instructions.cpp toString: what `program` writes without `--binary` | indices are not reduced modulo 2^32 |
| `Graphviz` | src/lib/utility.cpp writeGraphviz, src/lib/states.cpp label, src/lib/automata.cpp label: what `graph` writes | `isgraph` is that of the C locale |
| `Cmd` | src/cmd/hitwriter.cpp, searchcontroller.cpp, reader.cpp | the hit decoder is a parameter of the histogram |
| `HitWriter`, `SearchCmd`, `HistFile` | src/cmd/hitwriter.cpp, main.cpp search, options.cpp validation | boost option splitting, read errors inside a file and links to directories are not modelled |
| `Java`, `JavaHandles`, `JavaText` | src/java/src/main/java/com/lightboxtechnologies/lightgrep/*.java, src/java/jni/jlightgrep.cpp | the JVM and JNI work as specified; one thread; failures of JNI calls for lack of memory are not modelled |
| `Python`, `PythonHandles` | pylightgrep/lightgrep/__init__.py | ctypes and the interpreter work as documented; exceptions raised in a callback are not passed on; one thread; `Err` and the option structures are not modelled |

Not modelled: ICU itself (its tables and converters are parameters),
boost, allocation failure, src/what, src/val, re_gen,
factor_analysis.h, reading of listings (operator>> of instructions), performance.

## Recurrent hypotheses

* `NoZero`: no jump table of the program has an entry that leads to instruction
  0.  Where it is violated the code loses matches (finding 1).  It is proved for all
  sets of patterns that are not `Pumped`: unless some string can be repeated any number of
  times before a match of every pattern (`Fsm.unpumped_noZero`, `Session.unpumped_noZero`).
* No parallel edges: proved for the default determinization depth and for depth 0
  (`Fsm.finalized_parallel`); a limited depth violates it (finding 3).
* `NgFlat`, `NoBlank`: no non-greedy repetition inside a repetition, no branch that is only
  `{0}` before a bar (C97 asks for no `{0}` at all, `NoDead`); the
  rewriter loses matches otherwise (findings 7 and 11).
* `4 * weight t < UNB`: the bounds of the repetitions add up to less than 2^29;
  beyond, unsigned sums wrap.
* `Build`, `Converter.Ok`, `Converter.Reads`: a converter of ICU writes bytes, exactly for the
  characters it names as valid, and not more than its buffer holds; it reads back what it
  writes, whatever follows; the generated table has Lightgrep's own encodings under their
  names.  Encodings with one-way mappings violate the first (finding 62).
* `Readable`: besides, a character has at least one byte and what a converter reads are Unicode
  scalar values.
* `Env.Sound`: the tables of ICU, if there are any, consist of proper ranges.
* `Defined.Total`: ICU has a set for each property it knows the name of, and folds every set.

## Properties

### C01 Hits of one keyword never overlap and come out in order — proved

* Modelled: `Vm`: threads, epsilon closure, frames, search, searchResolve, closeOut, startsWith, reset.
* Proof: Invariant "MatchEnds[l] is the end of the last hit of l" by induction over arbitrary call histories (`VmInd` gives an induction principle for the epsilon loop).
* Theorems: `Vm.hits_of_keyword_apart`, `Vm.hits_apart_after_reset`, `Vm.decreasing_offsets_break_order`
* Offsets must not go back; decreasing_offsets_break_order shows why.

### C02 A reset context behaves like a new one — proved

* Modelled: `Vm.reset`.
* Proof: State equality up to memory that is never read before it is written; hence equal replies and hits for every later history.
* Theorems: `Vm.reset_is_fresh`
* For every program, without hypotheses on it.

### C03 Hit windows lie inside the data that was searched — proved

* Modelled: `Vm`.
* Proof: Invariant on the start and end of the threads in every list.
* Theorems: `Vm.hit_windows_inside_data`, `Vm.hits_apart_after_reset`

### C04 How the data is cut into buffers does not matter — proved

* Modelled: `Vm` + `Compiler` + whole pipeline.
* Proof: The hits of a keyword are determined by the data (C52/C53 machinery), independent of the cuts; the byte-pair filter at the buffer end is treated separately.
* Theorems: `Fsm.pipeline_cuts_agree`, `Compiler.cuts_agree`
* For each keyword the hits are the same and in the same order; the order among different keywords may depend on the cut, so altogether the hits are equal as multisets. pipeline_cuts_agree is for programs made from patterns without parallel edges (see C21); cuts_agree for any automaton whose labels guard the keywords.

### C05 lg_starts_with reports only hits at the first byte and leaves the context reset — proved

* Modelled: `Vm.startsWith`.
* Proof: Invariant "all threads start at the given offset".
* Theorems: `Vm.startsWith_hits_at_start`, `Vm.startsWith_leaves_fresh`, `Vm.startsWith_on_used_context`

### C06 lg_search's return value bounds later hits from below — proved

* Modelled: `Vm`, `_startOfLeftmostLiveThread`.
* Proof: Invariant: threads are sorted by start; those waiting to report are behind a live one.
* Theorems: `Vm.return_value_bounds_later_hits`

### C07 The hit callback does not influence the search — proved

* Modelled: `Vm`.
* Proof: Simulation between the run with and without callback.
* Theorems: `Vm.callback_does_not_influence`, `Vm.closeOut_callback_matters`

### C08 Every hit is a real match of its keyword — proved

* Modelled: `Vm`, `Compiler`, `Fsm`.
* Proof: Each thread carries a path witness (`VmSound`); composed with the languages of compiler, labels, subset construction and merging.
* Theorems: `Fsm.pipeline_hits_match`, `Compiler.compiled_hits_are_matches`, `Vm.hits_are_matches`
* pipeline_hits_match is for programs made from patterns without parallel edges (see C21); compiled_hits_are_matches for any automaton of kind Live; hits_are_matches for any guarded program.

### C09 No occurrence is silently lost — partial

* Modelled: `Vm`, `Compiler`.
* Proof: From C52; negation by a concrete pattern computed in the kernel.
* Theorems: `Compiler.matches_are_covered_partial`, `Fsm.unpumped_covered`, `Fsm.bounded_covered`, `Compiler.searches_end`, `Fsm.determinized_loses_match`
* False in general: determinized_loses_match. Proved for automata without a jump-table landing at address 0 (NoZero). A program is affected only if some string can be repeated any number of times before a match of every pattern (unpumped_noZero): not if one pattern has bounded matches (unpumped_of_bounded), no byte begins matches of all (unpumped_of_heads), or the first byte of a pattern's matches is nowhere else in them (unpumped_of_once).

### C10 Compiled programs never leave their bounds — proved

* Modelled: `Vm` with explicit outcomes for out-of-bounds and for running out of steps.
* Proof: `VmSafe.Bounded`: a static predicate that excludes both; compiled programs have it.
* Theorems: `Fsm.pipeline_never_out_of_bounds`, `Compiler.compiled_never_out_of_bounds`, `Compiler.unlabelled_match_out_of_bounds`
* pipeline_never_out_of_bounds is for programs made from patterns without parallel edges (with them no program results, C21). compiled_never_out_of_bounds is for automata in which every way to a match carries a label; without it false (unlabelled_match_out_of_bounds).

### C11 Code layout is consistent — partial

* Modelled: `Compiler`: DFS layout, snippet sizes, emission.
* Proof: Emitted lengths equal reserved lengths; negation for parallel edges.
* Theorems: `Compiler.layout_consistent_partial`, `Compiler.codegen_never_ub`, `Compiler.encodes_of_small`, `Compiler.parallel_edges_overrun`
* False for automata with parallel edges (parallel_edges_overrun). Proved for automata without them and with a plain initial state.

### C12 Compilation preserves the automaton's language — partial

* Modelled: `Compiler`.
* Proof: Correspondence of automaton paths and program runs; negation for a jump-table landing at address 0.
* Theorems: `Compiler.compiled_language_partial`, `Fsm.unpumped_language`, `Fsm.unpumped_noZero`, `Fsm.unpumped_of_bounded`, `Fsm.unpumped_of_heads`, `Fsm.unpumped_of_once`, `Fsm.bounded_language`, `Compiler.compiled_sound`, `Compiler.zero_landing_loses_match`
* False in general (zero_landing_loses_match). Nothing is added, for every automaton (compiled_sound); nothing is lost for automata without a jump-table landing at address 0 (NoZero). A program is affected only if some string can be repeated any number of times before a match of every pattern (unpumped_noZero): not if one pattern has bounded matches (unpumped_of_bounded), no byte begins matches of all (unpumped_of_heads), or the first byte of a pattern's matches is nowhere else in them (unpumped_of_once).

### C13 The byte-pair pre-filter never rejects a match — proved

* Modelled: `BestPair`.
* Proof: Invariant: every accepted string shows an accepted pair at the chosen offset.
* Theorems: `BestPair.filter_never_rejects`, `BestPair.filter_found`

### C14 lg_starts_with finds matches at the start of the buffer — partial

* Modelled: `Vm.startsWith`, with the gate at vm.cpp 536 and the filter chosen by `bestPair`.
* Proof: Agreement with a search at the first byte whenever the filter can look at the buffer (some keyword has a shorter match); the counterexample for the full statement is proved (starts_with_misses).
* Theorems: `Compiler.starts_with_agrees`, `Fsm.starts_with_partial`, `Fsm.unpumped_starts_with`, `Fsm.bounded_starts_with`, `Fsm.starts_with_misses`, `Compiler.filterOff_lt`, `Vm.starts_sound`
* Whenever some keyword has a match shorter than the buffer (or the buffer has at most one byte), lg_starts_with reports exactly the hits of a search that start at the first byte, so every pattern matching a prefix gets its hit (all sets of patterns that are not pumped; others under NoZero). Without that condition the property is false: starts_with_misses proves the counterexample, keywords ab and ..cd, buffer ab.

### C15 The automaton built for a pattern accepts exactly the pattern's matches — proved

* Modelled: `NfaBuilder`: fragments, traverse, all callbacks.
* Proof: Glushkov invariant by induction on the tree.
* Theorems: `NfaBuilder.builder_language`, `NfaBuilder.pattern_language`
* pattern_language starts from the parsed tree and has the exclusions of C18.

### C16 Counted repetition means what it says — proved

* Modelled: `NfaBuilder.traverse` of repetitions.
* Proof: Language of the expansion equals the bounded power.
* Theorems: `NfaBuilder.counted_repetition`

### C17 Patterns that can match nothing are refused, others are not — proved

* Modelled: `NfaBuilder`, `Fsm.addPattern`.
* Proof: The skip flag is set iff the empty string is accepted.
* Theorems: `Fsm.add_pattern`, `Fsm.add_pattern_ends`, `NfaBuilder.refused_iff_empty`, `NfaBuilder.pattern_refused_iff_empty`, `Handles.keyword_indices`
* For trees as the parser and rewriter make them, without look-around. add_pattern includes that a refused pattern leaves the combined automaton unchanged.

### C18 Tree rewriting does not change what a pattern matches — partial

* Modelled: `Regex`: all passes of rewriter.cpp.
* Proof: Language equality per pass by structural induction; negation for reduceEmptySubtrees.
* Theorems: `Regex.rewrites_preserve_language`, `Regex.reduce_preserves_language_partial`, `Regex.reduce_sub`, `Regex.empty_branch_loses_match`
* False in general: an alternation whose left branch matches only the empty string is taken for an empty subtree (empty_branch_loses_match). Proved for all other trees with bounds whose sum does not wrap; and for all trees with such bounds rewriting never adds a match (reduce_sub).

### C19 Non-greedy suffix reductions never lose matches — partial

* Modelled: `Regex.reduceTrailingNongreedy` and the other rewrites.
* Proof: Places: prefix domination (`SamePlaces`). Ends: the ways to match are listed in order of preference, as a backtracking matcher tries them (`rests` in `Props/Backtrack.lean`), and the reductions keep the first one; the other passes keep the list up to repeated entries (`Props/Ways.lean`), except the merging of consecutive repetitions. Negations for nested repetitions and for that merging.
* Theorems: `Regex.nongreedy_reduction_partial`, `Regex.nongreedy_reduction_preferred`, `Regex.reduce_places_partial`, `Regex.reduce_preferred_partial`, `Regex.combine_changes_preferred`, `Regex.nested_nongreedy_loses_match`
* False for non-greedy repetitions inside a repetition (nested_nongreedy_loses_match). For all other trees both halves are proved of the two reductions: the places where a match begins (nongreedy_reduction_partial) and where the preferred match ends (nongreedy_reduction_preferred). All passes together keep both when no consecutive repetitions are merged (reduce_places_partial, reduce_preferred_partial); merging can move the end (combine_changes_preferred).

### C20 Adding a keyword does not change the others — proved

* Modelled: `Optimizer.merge`, `Fsm`.
* Proof: Path correspondence for the pairs on the work list.
* Theorems: `Optimizer.merge_language`, `Optimizer.merge_combined`, `Optimizer.merge_ends`, `Fsm.add_pattern`, `Fsm.add_all`

### C21 Determinization preserves every keyword's language — proved

* Modelled: `Subset`.
* Proof: Subset invariant over the work list, for every depth limit.
* Theorems: `Subset.subset_language`, `Subset.subset_shape`, `Subset.subset_ends`, `Fsm.limited_overruns`
* limited_overruns: with a limited depth the construction can make parallel edges, and then code generation overruns.

### C22 Branch pruning removes only branches that can never win — proved

* Modelled: `Optimizer.prune`.
* Proof: Ordered path semantics.
* Theorems: `Optimizer.prune_preferred`, `Optimizer.prune_ends`

### C23 Every match path carries exactly its own keyword label — proved

* Modelled: `Label`.
* Proof: Work-list invariants of the backward search.
* Theorems: `Label.guards_crossed`, `Label.label_guards`, `Label.label_language`, `Label.label_ends`

### C24 Compiling does not spoil the FSM — partial

* Modelled: `Label` applied twice.
* Proof: Counterexamples computed in the kernel.
* Theorems: `Label.recompile_hangs`, `Label.recompile_loses_keyword`, `Label.recompile_partial`
* False as stated: a second lg_create_program on the same FSM hangs for ab+ and loses the keyword for ab. recompile_partial: when the first labelling changed no label, the second is the same.

### C25 Unicode sets behave as sets — proved

* Modelled: `RangeSet`.
* Proof: Parity of the boundaries below a number.
* Theorems: `RangeSet.rangeSet_test`, `RangeSet.rangeSet_eq`, `RangeSet.rangeSet_queries`, `RangeSet.rangeSet_iteration`, `RangeSet.rangeSet_fromBits`, `RangeSet.rangeSet_fromBits_small_wrong`
* The bitset constructor drops a trailing run when the bitset is smaller than the code space (rangeSet_fromBits_small_wrong).

### C26 The sparse set used for locks and live labels is a set — proved

* Modelled: `SparseSet`.
* Proof: Representation invariant, refinement to a set.
* Theorems: `SparseSet.sparseSet_refines_set`, `SparseSet.sparseSet_size`, `SparseSet.sparseSet_unfilled_unsound`

### C27 Byte-set range assignment and iteration are exact — proved

* Modelled: `ByteSet`.
* Proof: Byte, word and tail loops.
* Theorems: `ByteSet.byteSet_setRange`, `ByteSet.byteSet_reversed_wrong`, `ByteSet.byteSet_forEach`
* set needs beg <= end; byteSet_reversed_wrong shows what happens otherwise.

### C28 The compact adjacency lists behave as lists — proved

* Modelled: `VectorFamily`.
* Proof: Refinement to lists.
* Theorems: `VectorFamily.vectorFamily_refines_lists`

### C29 The chosen transition encodes exactly its byte set — proved

* Modelled: `Transition`.
* Proof: Case analysis of getSmallest, round trip through the instruction words.
* Theorems: `Transition.smallest_transition_exact`, `Transition.getSmallest_allowed`, `Transition.factory_get_allowed`

### C30 UTF-8 encoding and decoding are inverse — proved

* Modelled: `Utf`.
* Proof: Arithmetic on the bit fields; encoder and decoder against the table of well-formed sequences.
* Theorems: `Utf.utf8_inverse`

### C31 UTF-16 and UTF-32 encoding and decoding are inverse — proved

* Modelled: `Utf`.
* Proof: The same for UTF-16 and UTF-32, both byte orders.
* Theorems: `Utf.utf16_inverse`, `Utf.utf32_inverse`

### C32 A character class becomes exactly its encodings — proved

* Modelled: `Encoders`.
* Proof: Range splitting by induction; exact set of encodings.
* Theorems: `Encoders.utf_class_exact`, `Encoders.ascii_class_exact`, `Encoders.base_class_exact`, `Encoders.class_exact`, `Encoders.leaf_exact`, `Encoders.leaves_exact`
* For ASCII, UTF-8, UTF-16 and UTF-32 in both byte orders; class_exact, leaf_exact and leaves_exact also for ICU's encodings (any converter that meets Converter.Ok) and for byte transforms and rotations around any of them.

### C33 Merging byte ranges loses and adds nothing — proved

* Modelled: `Encoders.collapse`.
* Proof: Each merging step keeps the union of products.
* Theorems: `Encoders.collapsing_keeps_strings`
* For sequences no longer than the encoder's maximum, as the encoders make them.

### C34 Byte transformations are invertible — partial

* Modelled: `Transforms`.
* Proof: Bijectivity; negations.
* Theorems: `Transforms.byteTransform_undone`, `Transforms.byteChain_undone`, `Transforms.rot_undone_partial`, `Transforms.rot_large_not_undone`, `Transforms.rotEncoder_roundTrip_partial`, `Transforms.byteEncoder_read_ignores`, `Transforms.byteEncoder_write_undone`
* Byte transforms proved. Rotations only up to 26 places (rot_large_not_undone refutes the rest). Reading through a byte-transforming encoder ignores its input (byteEncoder_read_ignores).

### C35 Decoders account for every byte — proved

* Modelled: `Decoders`: byte source, OCE/XOR, ASCII/UTF-8/16/32, rotation.
* Proof: Induction on the buffer.
* Theorems: `Decoders.decoder_stream`, `Decoders.decoded_unique`, `Decoders.icu_stream`
* decoder_stream is about the library's own decoders under byte transforms and rotations, icu_stream about ICU's (see C94).

### C36 A decoded hit window contains the hit — partial

* Modelled: `Decoders.readWindow`.
* Proof: Decomposition of the decoded stream; negation for the count.
* Theorems: `Decoders.window_decodes_partial`, `Decoders.window_trailing`, `Decoders.window_bad_count_partial`, `Decoders.window_bad_count_wrong`, `Decoders.icu_window_decodes_partial`, `Decoders.icu_window_bad_count_partial`, `Decoders.icu_window_bad_count_wrong`
* The returned count is wrong whenever there is no leading context (window_bad_count_wrong); the window itself and the count in the other cases are proved, for the library's own encodings and for ICU's.

### C37 Writing and reading back a program is lossless — proved

* Modelled: `Marshal`.
* Proof: Round trip.
* Theorems: `Marshal.write_read`, `Loaded.session_write_read`, `Stored.compiled_storable`
* Sizes below 2^31 (the sizes are added up in an int and passed as one). compiled_storable shows that every compiled program fits in the format.

### C38 Truncated serialized programs are refused — proved

* Modelled: `Marshal`.
* Proof: Every proper prefix is refused.
* Theorems: `Marshal.truncated_refused`, `Marshal.malformed_not_refused`
* Truncations are refused; other malformed input is not, and is read out of bounds (malformed_not_refused).

### C39 Keyword indices are dense and stable — proved

* Modelled: `Handles`: FSM and program handles over an abstract automaton engine.
* Proof: Invariant over histories of API calls.
* Theorems: `Handles.keyword_indices`

### C40 A program's pattern list is frozen — proved

* Modelled: `Handles`.
* Proof: Copy-on-write invariant over histories.
* Theorems: `Handles.program_list_frozen`

### C41 Pattern lists are parsed line by line — partial

* Modelled: `PatternList`.
* Proof: Fold over lines; negations.
* Theorems: `Handles.pattern_list_partial`, `Handles.pattern_list_never_reports_success`, `Handles.pattern_list_needs_error_argument`
* The effects on the keyword list are proved; the return value is always failure (pattern_list_never_reports_success) and a null error argument is dereferenced when a line has an error (pattern_list_needs_error_argument).

### C42 Numeric escapes denote the right value — proved

* Modelled: `ParseUtil`.
* Proof: Digit folds.
* Theorems: `ParseUtil.numeric_escape`
* Names resolved by ICU are a parameter.

### C43 ASCII case folding closes a set under ASCII case — proved

* Modelled: `ParseUtil`.
* Proof: Closure property of the folded set.
* Theorems: `ParseUtil.case_folding`, `ParseUtil.case_folding_icu`
* ICU's own closure is a hypothesis of case_folding_icu.

### C44 Context lines around a hit are delimited by newlines — partial

* Modelled: `Cmd`.
* Proof: Loops counting newlines; negation at 2^31-1.
* Theorems: `Cmd.context_lines_partial`, `Cmd.context_lines_overflow`
* Proved for fewer than 2^31-1 context lines; with exactly 2^31-1 the property is false (context_lines_overflow).

### C45 The command-line search feeds every byte exactly once — proved

* Modelled: `Cmd`.
* Proof: All schedules of reader and searcher.
* Theorems: `Cmd.search_file`, `Cmd.search_file_ends`, `Cmd.search_mapped_file`, `Cmd.block_size_zero`
* Block size zero searches nothing (block_size_zero).

### C46 Histogram order is a strict weak order and counts are exact — proved

* Modelled: `Cmd`.
* Proof: Lexicographic order; counting invariant.
* Theorems: `Cmd.histogram_order`, `Cmd.histogram_counts`

### C47 Zero-length analysis is right — proved

* Modelled: `Regex`.
* Proof: Structural induction against the language.
* Theorems: `Regex.zero_length_test`, `Regex.zero_length_test_root`

### C48 Duplicate removal keeps first occurrences — proved

* Modelled: `Sequences`.
* Proof: Induction on the list.
* Theorems: `Sequences.removeRightDuplicates_first`, `Sequences.removeRightDuplicates_set`

### C49 Decoding a pattern's text never reads past it and yields its code points — partial

* Modelled: `Utf.patternText`.
* Proof: Decoder loop; negation for truncated text.
* Theorems: `Utf.patternText_decodes`, `Utf.patternText_overruns`, `Utf.patternText_inside_partial`
* False in general: a pattern text ending in a truncated UTF-8 sequence is read past its end (patternText_overruns); proved for texts without one.

### C50 Printed hit text never breaks the line format — proved

* Modelled: `Cmd.escapeControlChars`.
* Proof: Image of the escape function.
* Theorems: `Cmd.printed_text`

### C51 Built-in character classes denote the documented sets — proved

* Modelled: `ParseUtil`.
* Proof: Membership in the built sets.
* Theorems: `ParseUtil.builtin_classes`
* Outside ASCII mode \d and \w are ICU's sets, which are parameters of the model; the property does not speak about them.

### C52 Hits of a keyword are its leftmost non-overlapping matches — partial

* Modelled: `Vm` + `Compiler`.
* Proof: Future-language invariant over frames.
* Theorems: `Compiler.hits_leftmost_partial`, `Fsm.unpumped_hits`, `Fsm.bounded_hits`, `Compiler.searches_end`, `Fsm.determinized_loses_match`
* False in general: determinized_loses_match. Proved for automata with guarding labels without a jump-table landing at address 0 (NoZero). A program is affected only if some string can be repeated any number of times before a match of every pattern (unpumped_noZero): not if one pattern has bounded matches (unpumped_of_bounded), no byte begins matches of all (unpumped_of_heads), or the first byte of a pattern's matches is nowhere else in them (unpumped_of_once).

### C53 Among matches with the same start the automaton's preference decides — partial

* Modelled: `Vm` + `Compiler` with ordered paths (`VmOrder`, `VmPrefer`, `VmBest`, `VmGreedy`).
* Proof: Each thread is given its list of fork decisions; the preferred runs are never lost.
* Theorems: `Compiler.hits_preferred_partial`, `Fsm.unpumped_preferred`, `Fsm.bounded_preferred`, `Compiler.preferred_unique`
* Proved for automata with guarding labels without a jump-table landing at address 0 (NoZero); without that false as in C52. A program is affected only if some string can be repeated any number of times before a match of every pattern (unpumped_noZero): not if one pattern has bounded matches (unpumped_of_bounded), no byte begins matches of all (unpumped_of_heads), or the first byte of a pattern's matches is nowhere else in them (unpumped_of_once).

### C54 From patterns to hits — partial

* Modelled: `Fsm`, `Subset`, `Label`, `Compiler`, `Vm`.
* Proof: Composition.
* Theorems: `Fsm.finalized_hits_partial`, `Fsm.unpumped_hits`, `Fsm.unpumped_noZero`, `Fsm.bounded_hits`, `Fsm.bounded_noZero`, `Fsm.finalized_parallel`, `Fsm.finalize_throws`, `Fsm.finalize_ends`, `Fsm.finalized_search_ends`, `Fsm.determinized_loses_match`, `Fsm.limited_overruns`, `Fsm.pattern_hits_partial`, `Fsm.adding_ends`, `Fsm.search_ends`
* The full statement is false (determinized_loses_match: with the default determinization a leftmost match is lost to the landing-address defect; limited_overruns: depth 1 makes the compiler write out of bounds).  Proved for patterns given as rewritten trees without look-around, any determinization depth, patterns that are not pumped (unpumped_hits), or automata without a jump-table landing at address 0, and without parallel edges (proved absent when the depth is 0 or at least the number of states). A program is affected only if some string can be repeated any number of times before a match of every pattern (unpumped_noZero): not if one pattern has bounded matches (unpumped_of_bounded), no byte begins matches of all (unpumped_of_heads), or the first byte of a pattern's matches is nowhere else in them (unpumped_of_once).

### C55 Adding a pattern keeps which match it prefers — partial

* Modelled: `Optimizer`; `Twin` and `Orderly` (Props/Twins.lean) say which states merging may take for the same and when that does no harm.
* Proof: Counterexample; that the patterns already there keep their preferences, and so does the new one if its automaton is orderly, by invariants of the merge loop (the order in which edges are visited, the places of their images).
* Theorems: `Optimizer.merge_reorders`, `Optimizer.prune_preferred`, `Optimizer.merge_keeps`, `Optimizer.merge_orderly`
* False as stated: merge_reorders is a pattern whose preferred match changes on merging. The patterns already in the FSM always keep their preferences (merge_keeps); the new one keeps its own if the states of its automaton that may be taken for the same have no common successor and no cycle leads to them (merge_orderly). Pruning keeps preferences (prune_preferred); leftmost starts are kept (C54).

### C56 What was encoded before does not change a class — proved

* Modelled: `Encoders` cache.
* Proof: The cached answer equals the computed one for every history.
* Theorems: `Encoders.cache_keeps_answers`, `Encoders.anyEntry_answers`, `Encoders.leaf_exact`

### C57 The text of a hit in context is faithful — proved

* Modelled: `Decoders`.
* Proof: Concatenation of UTF-8 encodings.
* Theorems: `Decoders.hit_context_text`, `Decoders.icu_hit_context_text`
* The entries themselves are described by C36.

### C58 Every pattern has the meaning the grammar gives it — proved

* Modelled: `Parser`.
* Proof: Recursive descent against an inductive grammar (`Derives`), both directions.
* Theorems: `Parser.parse_iff_derives`
* On token sequences; the LALR automaton is replaced by recursive descent and the conflicts resolved by shifting are written into the grammar.

### C59 Errors point into the pattern — partial

* Modelled: `Parser`.
* Proof: Ranges of tokens partition the text.
* Theorems: `Parser.error_range_in_pattern`, `Parser.empty_pattern_error`
* False for the empty pattern (empty_pattern_error); proved for all others.

### C60 A fixed string means itself — proved

* Modelled: `Parser`.
* Proof: Induction on the text.
* Theorems: `Parser.fixed_text`, `Parser.fixed_text_cased`, `Parser.fixed_refused`
* Case-insensitively for builds without ICU's case folding and for encodings that have the Latin letters; case-sensitively for all.

### C61 Quoting makes any text literal — proved

* Modelled: `Parser`.
* Proof: The lexers agree on quoted and fixed text.
* Theorems: `Parser.quoted_is_fixed`

### C62 Text without special characters means itself — proved

* Modelled: `Parser`.
* Proof: Induction on the text.
* Theorems: `Parser.plain_text`
* Case-insensitively for builds without ICU's case folding and for encodings that have the Latin letters; case-sensitively for all.

### C63 Shortcuts in the rewriter are sound — proved

* Modelled: `Text`, `Regex`.
* Proof: A tree with a repetition needs the characters in its text.
* Theorems: `Text.shortcuts_are_sound`
* For every environment of the parser whose tables are well-formed (Env.Sound), in particular the build without ICU.

### C64 The room for parse nodes suffices — proved

* Modelled: `Text`.
* Proof: Node counts against token counts.
* Theorems: `Text.nodes_fit`, `Text.upper_bound_is_none`
* For patterns that parse. The function called nodesUpperBound is not an upper bound (upper_bound_is_none: \b), the doubling in ParseTree::init saves it.

### C65 An encoding chain means the composition of its parts — proved

* Modelled: `Chain`.
* Proof: Invariant over the factory's map.
* Theorems: `Chain.chain_meaning`, `Chain.plain_names`, `Chain.ascii_names_refused`, `Chain.factory_init`, `Chain.factory_put`
* For the library with and without ICU: Build is the table of encodings and ICU's converters, which are arbitrary but for the assumptions stated in Build (met by Build.plain and by EncTable.build). Reads is the specification of a chain; plain_names lists the names there are without ICU. Without ICU, chains that name ASCII by other spellings than ASCII are refused (ascii_names_refused); the theorem states that exception.

### C66 A chain decodes what it encodes — proved

* Modelled: `Chain`, `Decoders`.
* Proof: Round trip through the composed transforms.
* Theorems: `Chain.chain_decodes`
* With and without ICU; of a converter it is assumed that it reads back the characters it writes, whatever follows (Converter.Reads).

### C67 Every hit matches the text of the pattern whose number it carries — proved

* Modelled: `Session`: the whole chain of calls.
* Proof: Composition of C15, C18, C32, C54, C58, C65.
* Theorems: `Session.text_hits_match`, `Session.sample_compiled`
* For patterns whose repetition bounds add up to less than about 2^29. Parallel edges, which only a limited determinization depth makes, are excluded (Compiled.nodup; they overrun a table, see C52).

### C68 The hits of a pattern are the leftmost non-overlapping matches of its text — partial

* Modelled: `Session`.
* Proof: The same, with C52 for completeness.
* Theorems: `Session.text_hits_partial`, `Session.unpumped_text_hits`, `Session.unpumped_noZero`, `Session.unpumped_of_bounded`, `Session.unpumped_of_heads`, `Session.bounded_text_hits`, `Session.sample_compiled`
* Proved for patterns without non-greedy repetitions inside repetitions and without a branch that is only {0} before a bar, as in (a{0}|b)c (the rewriter loses matches for these, C18 and C19), unless some string can be repeated any number of times before a match of every such pattern (unpumped_text_hits; then matches can be lost, C52). The pattern may be one of many.

### C69 A character class matches the set its text describes — proved

* Modelled: `Parser` classes; `ClassSays` reads the tokens as sets.
* Proof: Induction on derivations, both ways, with the range-set laws of C22.
* Theorems: `Meaning.class_meaning`, `Meaning.plain_reading`, `Meaning.union_order_matters`
* For any table of named classes and case folding that agrees with its reading; plain_reading shows that the build without ICU does. union_order_matters shows a consequence that may surprise: whether bytes are added or taken away is decided by the first operand, so union does not commute.

### C70 A pattern means what its text says — proved

* Modelled: `Parser`, `Session`; `Says` reads the tokens as a language.
* Proof: Induction on derivations, both ways; composition with C58, C67 and C68.
* Theorems: `Meaning.text_meaning`, `Meaning.text_says_once`, `Meaning.hits_are_asked_for`, `Meaning.asked_for_is_hit`, `Meaning.plain_reading`
* Lookarounds are refused later (C59). The converse for hits, asked_for_is_hit, has the conditions of C68.

### C71 The text of a pattern is split into tokens as documented — proved

* Modelled: `Parser` lexer; `Begins` and `MadeOf` read a text as tokens without mentioning the lexer.
* Proof: Case analysis both ways and induction on the text; invariance of readings under positions composes it with C70.
* Theorems: `Lexer.tokens_iff`, `Lexer.made_of_once`, `Lexer.text_says_iff`, `Lexer.text_meaning`, `Lexer.asks_iff`, `Lexer.number_iff`
* For every table of names and properties that does not give back more text than it got (as plain_shortens shows of the build without ICU).

### C72 An error message about a pattern names a fault that is there, at its place — proved

* Modelled: `Parser`; `Fault` says of a token list that it has a fault, without mentioning the parser's state.
* Proof: Induction on fuel, as for C59, with completeness of the grammar for what is not closed; for the continuations, that every function looks at one token ahead (`Steady`), composed by one lemma for sequences.
* Theorems: `Parser.error_names_fault`, `Parser.tokens_doomed`, `Parser.text_doomed`, `Parser.nothing_says`
* For tables of names and properties as in C71. The empty text is reported at the range 0 to 1 (see C59).

### C73 Among the matches that begin at the same place, the automaton prefers the one a backtracking matcher finds first — proved

* Modelled: `NfaBuilder.build`, `Optimizer.pruneBranches`; `rests` (Props/Backtrack.lean) lists what is left after each way to match, in order, by recursion on the tree; `Reports` says what is reported given the first.
* Proof: Induction on the tree: a fragment leaves the same rests in the same order up to repetitions of earlier ones (`fragment_leaves`); loops by induction on the data. Paths are related to the list by `follow_best`. The conditions are shown necessary by `ends_reorder` and `rounds_reorder`.
* Theorems: `NfaBuilder.built_prefers`, `NfaBuilder.pruned_prefers`, `NfaBuilder.preferred_iff_follow`, `NfaBuilder.ends_reorder`, `NfaBuilder.rounds_reorder`
* For trees as they come out of the rewriter, without look-around. Merging automata can change preferences (C55).

### C74 The hits of a keyword are those a backtracking matcher finds, whatever the other keywords are — partial

* Modelled: All of `NfaBuilder`, `Optimizer`, `Label`, `Subset`, `Fsm`, `Compiler`, `Vm`.
* Proof: Composition: C73, then merging (C55, by induction on the list of patterns), determinizing (`subset_preferred`: a state leaves what the list of states it stands for leaves, by induction on the data), labelling (`label_preferred`), and the machine (C53).
* Theorems: `Fsm.hits_backtrack_partial`, `Fsm.unpumped_backtrack_partial`, `Fsm.clear_stays`, `Fsm.words_stays`, `Fsm.hits_same_partial`, `Fsm.add_all_preferred`, `Fsm.finalize_preferred`, `Subset.subset_preferred`, `NfaBuilder.label_preferred`
* All hypotheses are needed because the code is wrong without them: Backtracks (ends_reorder, rounds_reorder), Stays (merge_reorders), NoZero (determinized_loses_match) or patterns that are not pumped (unpumped_backtrack_partial), no parallel edges (limited_overruns; always so with the default depth, finalized_parallel). Stays is proved for patterns in which no two leaves that may come next begin with the same set of bytes (clear_stays) and for alternatives of strings (words_stays). Look-around is not included.

### C75 Sample matches match — partial

* Modelled: `MatchGen` models matchgen.cpp with the random numbers as a parameter, an access to an empty vector as an outcome, and a step budget.
* Proof: Invariant over the rounds of a walk: the path follows edges of the automaton or repeats a state (`Stutter`); without loops it only follows edges and no state comes twice (`Way`), which bounds the rounds. That automata of patterns with bounded matches have no loops is `loop_unbounded`. Counterexamples for the rest.
* Theorems: `MatchGen.samples_match_partial`, `MatchGen.samples_contain_partial`, `MatchGen.sample_no_match`, `MatchGen.samples_hang`, `MatchGen.samples_no_loops`, `MatchGen.samples_no_patterns`
* False as stated: sample_no_match is a sample that does not match, samples_hang a walk that never ends, and a loop limit of 0 or no keywords access an empty vector. Proved in full for keywords with bounded matches; for all keywords a match is inside each sample. Where the matches are unbounded, when exactly a walk ends is not characterized.

### C76 Keywords on the command line are searched for as given — partial

* Modelled: `CmdLine` models `getPatternLines` and `parsePatterns` on top of `PatternList` (C41).
* Proof: The text written for the keywords, cut as `lg_add_pattern_list` cuts it, gives back the keywords, encodings and options (`text_lines`, `line_columns`), by induction on the lists; then C41. Concrete counterexamples for keywords with tabs or line breaks and for empty ones.
* Theorems: `Handles.command_line_partial`, `Handles.files_in_order`, `Handles.tab_ignores_all`, `Handles.break_splits`, `Handles.empty_shifts`
* False as stated: a keyword with a tab makes all keywords be ignored, one with a line break is taken for two, and for an empty one the encoding is taken for the keyword. Proved for all keywords without tab, CR, LF and NUL that are not empty, and encodings without commas. The parsing of the command line itself is not modelled.

### C77 lg_search_resolve finishes what was begun and begins nothing new — proved

* Modelled: `Vm.searchResolve` with its inner loop and its early stop; `resolves` is the history of calls.
* Proof: The invariant of C53 (`BI`) restricted to matches that start before the place where resolving begins is kept by every byte (`resolve_loop`); threads that wait at Finish keep it over bytes that are not looked at (`BI.skip`); then the hits are a first part of the hits of a whole search (`chain_prefix`).
* Theorems: `Compiler.resolve_agrees`, `Compiler.resolve_covers_partial`, `Fsm.unpumped_resolve`
* resolve_agrees is the property, for every compiled program. resolve_covers_partial and unpumped_resolve add that no match begun is missed, which needs NoZero or patterns that are not pumped, as in C09.

### C78 The hits for a text are those a backtracking matcher for the text finds — partial

* Modelled: `Session` (parser, rewriter, encoder chain, FSM), `Compiler`, `Vm`.
* Proof: Composition: the rewriter keeps the preferred match (C19, `reduce_preferred_partial`), encoding the leaves keeps the shape of the tree (`leaves_shape`), every character is read in one way because no encoding of a character begins another's (`chars_prefix`, from the inverses of C33), then C74. For classes of one-byte characters the sets of bytes that leaves begin with are those of the text (`narrow_alike`), so that `clear_stays` and `words_stays` of C74 can be asked of the text (`ClearText`).
* Theorems: `Session.text_backtrack_partial`, `Session.unpumped_text_backtrack_partial`, `Session.clear_text_backtrack_partial`, `Session.chars_prefix`
* Missing: texts with neighbouring repetitions of the same thing, for which it is false (combine_changes_preferred), automata that do not stay in order when merged (as in C74), and requests that are pumped (see C68). clear_text_backtrack_partial says of the text, not of the automaton, when the order is kept: characters and classes of one-byte characters, and alternatives that begin differently or are sequences. What is repeated and how a match ends is asked of the rewritten text.

### C79 The text shown and counted for a hit is the characters its bytes spell — partial

* Modelled: `HitWriter` models decodeContext, with reads before the buffer as an outcome unless the file is memory mapped, and the order of buffers and hits in searchFile, on top of `Decoders` (C36), `Cmd` (C44, C45) and `Vm`.
* Proof: The decoder sees the bytes of the hit as the encodings of its characters whatever precedes (`window_hit`, from C33/C36); no character of the context reaches into the hit (`no_inside`, `encs_suffix`). The histogram follows from C45 and induction over the blocks. `plus_read_outside` is a concrete search, with the program the compiler makes, in which the text is read before the buffer.
* Theorems: `Cmd.hit_text_partial`, `Cmd.context_text_partial`, `Cmd.mapped_hit_text`, `Cmd.mapped_histogram`, `Cmd.icu_hit_text`, `Cmd.icu_mapped_hit_text`, `Cmd.earlier_hit_outside`, `Cmd.plus_read_outside`
* False as stated for files that are not memory mapped: a hit reported at the end of the search, or begun in an earlier block, is read from memory before the current buffer (plus_read_outside). Proved for hits in the current buffer and for memory mapped files; for ICU's encodings the text of the hit but not that of the lines around it. Numbers of lines are below 2^31 - 1.

### C80 Each input is searched as if it were the only one — proved

* Modelled: `SearchCmd` models the search command from the creation of the context to the histogram: lists, inputs, directory trees, the callback and everything written. Files, directories and standard input are a value (`World`).
* Proof: Induction over lists, inputs and directory trees: each file begins with a reset, so that it is searched as in a new context (C11, C12), and the blocks of a file are the same mapped or not (`file_blocks`, over every interleaving of C42). `walk_visits_all` says, with a relation of its own, that the traversal gives the files of the tree, once each. `command_ends` adds C10 and C01 for compiled programs.
* Theorems: `Cmd.inputs_searched_alone`, `Cmd.hit_columns`, `Cmd.context_columns`, `Cmd.walk_visits_all`, `Cmd.command_ends`, `Cmd.file_blocks`
* Not modelled: read errors in the middle of a file, links to directories. inputs_searched_alone is about every program and run that ends; command_ends shows that compiled ones end. hit_columns says what a printed line holds.

### C81 Standard input is read at most once — proved

* Modelled: `SearchCmd`.
* Proof: `stdinUsed` counts; induction over the lists and inputs.
* Theorems: `Cmd.stdin_once`, `Cmd.stdin_searched`, `Cmd.list_lines`
* stdin_searched is about - where the current directory has no directory of that name (finding 40). list_lines says which inputs a list of inputs names.

### C82 Options of the search command mean what they say, and clashing ones are refused — proved

* Modelled: `SearchCmd.validate`, `selectCallbackFn`.
* Proof: Cases over the options, against the specification `Consistent`. `context_not_mapped` shows that standard input in a list escapes the check.
* Theorems: `Cmd.options_meaning`, `Cmd.options_style`, `Cmd.context_not_mapped`
* How the command line is cut into options (boost) is not modelled. context_not_mapped is a gap in what the check is for: - in a list is searched unmapped although context is asked for.

### C83 A search or hit context asked for from Java gets exactly the bytes asked for — partial

* Modelled: `Java` models the Java classes' argument checks with wrapping 32 and 64 bit arithmetic (core `Int32`, `Int64`), byte buffers with their backing store, and the JNI functions; reading outside is the outcome `wild`.
* Proof: Every check is shown to decide its condition over the integers (`Checks`); cases over the kinds of buffer. The specification is `part`, `Buffer.rest` and `HitWithin`. The destroyed decoder is a counterexample (`hit_context_destroyed_decoder`).
* Theorems: `Java.search_array`, `Java.search_buffer`, `Java.search_buffer_position`, `Java.read_only_buffer_moves`, `Java.hit_context_array_partial`, `Java.hit_context_buffer_partial`, `Java.hit_context_destroyed_decoder`, `Java.hit_context_overflow`
* Proved in full for searches. For hit contexts a destroyed decoder is not noticed and dereferenced (hit_context_destroyed_decoder), and a hit at the very end of the range of long is refused (hit_context_overflow); otherwise proved. A read-only heap buffer's position is moved (read_only_buffer_moves). startsWith has the same checks as search. The JVM's own part of JNI is taken to work as specified.

### C84 A destroyed Java handle is harmless — partial

* Modelled: `JavaHandles`: handles with their stored pointer, objects of the library with their state, and one step per call.
* Proof: Invariant `Owned` (a one-to-one correspondence between live handles and live objects) by induction over the history.
* Theorems: `Java.java_handles_partial`, `Java.destroy_twice`, `Java.destroy_keeps`, `Java.close_all_frees`, `Java.destroyed_decoder_used`
* False for decoders: LGUtil.getHitContext uses a destroyed one (destroyed_decoder_used). Proved for all histories without that. One thread at a time.

### C85 A program written to a Java array can be read back, and nothing else is overwritten — partial

* Modelled: `Java.writeProgram`, `readProgram`, with the ids that JNI functions need as a value.
* Proof: Arithmetic and list lemmas; the failures are concrete.
* Theorems: `Java.write_program_partial`, `Java.write_program_large`, `Java.read_program_fails`, `Java.read_program_wild`
* Writing is proved for programs below 2^31 bytes; larger ones are written past the array (write_program_large). Reading never works: the constructor it calls is never looked up and does not exist (read_program_fails, read_program_wild).

### C86 Numbers cross between Java and the library unchanged — partial

* Modelled: `Java`: conversions with core integer types.
* Proof: Bit-level lemmas about `toUInt32`, `toUInt64` and their inverses.
* Theorems: `Java.user_index_roundtrip`, `Java.hit_numbers`, `Java.search_result_partial`, `Java.search_result_truncated`
* False for the result of a search, which is an int in Java: offsets from 2^31 on are truncated (search_result_truncated).

### C87 Text crosses between Java and the library unchanged — partial

* Modelled: `JavaText`: strings as UTF-16 units, the JVM's modified UTF-8 as the JNI specification gives it, then the parser of C58.
* Proof: Decoding of modified UTF-8 by the library's decoder, unit by unit (`transform_units`); with C89 the strings with other units are refused. For the other direction C57.
* Theorems: `JavaText.pattern_text_partial`, `JavaText.pattern_text_refused`, `JavaText.supplementary_refused`, `JavaText.text_to_java_partial`, `JavaText.context_to_java_partial`, `JavaText.context_positions`, `JavaText.newString_unique`, `JavaText.supplementary_to_java`
* False for characters outside the basic plane: patterns with them are refused (supplementary_refused), and text with them is handed to JNI in a form it does not define (supplementary_to_java). False for positions of hits unless what precedes is ASCII (context_positions). Proved for all other text.

### C88 Determinize in Java means determinize — partial

* Modelled: `Java.determinizeDepth` and `Subset.finalizeGraph`.
* Proof: From C54: `finalized_parallel` and `limited_overruns`.
* Theorems: `Java.determinize_off_partial`, `Java.determinize_on_overruns`
* False with the option: it asks for depth 1, for which the compiler can write out of bounds (determinize_on_overruns). Without it programs have no parallel edges, which is what the theorems of C54 and C68 ask for.

### C89 Only well-formed UTF-8 is accepted as a pattern — proved

* Modelled: `Text.parseText`: decoding, lexer and parser.
* Proof: By C58 an accepted text has a derivation, which has no mistaken tokens (`re_fine`); by C71 texts made of such tokens have only readable characters; the decoder's results are inverted (`transform_utf8`).
* Theorems: `Malformed.accepted_wellformed`, `Malformed.malformed_refused`
* For every table of names that accepts only names of ASCII characters, as prepareStringForICU makes sure of (plain_namesAscii for the build without ICU). That a text which stops in the middle of a character is read past its end is finding C49.

### C90 Python: each buffer is searched as if it were alone, and the counts agree with the hits — proved

* Modelled: `Python.Op.run`, `Python.runs`: the calls of the C API each method makes, on the VM of C01, with the accumulator.
* Proof: `reset_is_fresh` and `startsWith_leaves_fresh` (C02, C05), by induction over the sequence; the counts by an invariant.
* Theorems: `Python.buffers_alone`, `Python.counts_tally`, `Python.buffer_after_search`
* On a context that is in the middle of a search searchBuffer reports also matches begun before (buffer_after_search): it resets after searching, not before.

### C91 Python: every hit names the entry of the pattern list it matches — proved

* Modelled: `Python.addPatterns` on the FSM and parser of `Session`, `Acc.callback` on the pattern map.
* Proof: The list is flattened to requests (`addPatterns_spec`), for which C67 holds; the numbers are consecutive, so that the pattern map and the requests go together (`infos_requests`).
* Theorems: `Python.hits_named`, `Python.patterns_added`, `Python.null_cuts`
* pattern and encChain are the texts up to a null character: a pattern with one is cut there without complaint (null_cuts). The hypotheses about the program and the requests are those of C67.

### C92 Python handles are safe in every order of calls — proved

* Modelled: `PythonHandles`: objects and handles as in C84, with the checks of the Python classes.
* Proof: The invariant `Owned` of C84, by induction over the history.
* Theorems: `Python.python_handles`, `Python.closed_refused`, `Python.close_closes`, `Python.buffer_whole`, `Python.half_searched`
* Callbacks that close the handles of the running search are not modelled. Of a buffer whose items have several bytes only a part is searched (half_searched).

### C93 Python: the hit context is the text of the characters shown — proved

* Modelled: `Decoders.hitContext` with the replacement 32 and Python's strict decoding as a relation.
* Proof: From C57 (`hit_context_text`), scalars from C55; UTF-8 is injective (`spec8_inj`).
* Theorems: `Python.context_to_python`, `JavaText.context_positions`
* ctypes and bytes.decode as documented. context_positions holds for every replacement character and is stated for hitContext itself; the binding passes its positions on.

### C94 Decoders of ICU's encodings deliver what the converter reads, at the right offsets — proved

* Modelled: `Decoders.Shape.icu`, `pump`, `icuFront`: the decoder's queue; `Converter`: ICU's functions, arbitrary.
* Proof: The queue is empty or holds the whole rest of the range (`Coming`), kept by every call; induction on the length of the rest.
* Theorems: `Decoders.icu_stream`, `Decoders.converted_unique`, `Decoders.converted_text`
* What ICU's converters read is arbitrary; the assumptions are in Converter.Reads.

### C95 The generated table of encodings names each alias's first encoding — proved

* Modelled: `EncTable.collect`, `addAlias`, `replaces`: the generator's loops over ICU's arbitrary answers.
* Proof: Invariant `Holds`: the map is sorted and holds the first encoding of each alias seen so far, by induction over aliases and encodings.
* Theorems: `EncTable.tables_spec`, `EncTable.lookup_spec`, `EncTable.never_replaced`, `EncTable.sample_encoder`
* The text of the header around the tables is not modelled. The preference among standards that the program means to apply never takes effect (never_replaced, finding 60).

### C96 The search command prints the leftmost matches of the keywords it is given — partial

* Modelled: `realEngine`, `commandProgram` (module CmdEngine): the handles with the parser, the encoders and the automaton they stand for; then C80's model of the command.
* Proof: The calls of a command line are the requests of `Session` (`one_items`, induction over keywords and encodings with the table of patterns); then C76, C41 for keyword files, C67, C68 and C80; that acceptable keywords make a program and the search ends (`command_works`, `files_work`) from `requests_count` and `command_ends`.
* Theorems: `Handles.command_hits_partial`, `Handles.file_hits_partial`, `Handles.command_works`, `Handles.files_work`, `Handles.command_compiled`, `Handles.files_compiled`, `Handles.one_items`, `Session.text_hits_at`, `Whole.lightgrep_hits_partial`, `Whole.lightgrep_file_hits_partial`, `Whole.program_hits_partial`, `Whole.program_file_hits_partial`
* Missing: keywords with a branch that is only {0} before a bar or with non-greedy repetitions in repetitions, and sets of keywords that are pumped (for these matches can be lost, C18, C52); keywords on the command line with tabs or line breaks (C76 is false for them). The printed text is stated with the definitions of C80.

### C97 Which patterns are refused — partial

* Modelled: The modules of C67: `Session.requests`, from the text to the automaton.
* Proof: Each stage's way of failing is decided: the rewriter keeps the set of leaves of greedy patterns (`reduce_keeps`) and adds none to others (`reduce_leaves_all`), the builder makes something of a leaf if and only if the leaf has a string (`makes_iff`, `leaves_present`), and the empty string survives rewriting (`reduce_nil`, every pattern); then C64's `refused_iff_empty`.
* Theorems: `Session.accepted_iff_partial`, `Session.request_decided`, `Session.dropped_unchecked`, `Regex.reduce_leaves_all`, `Regex.reduce_nil`
* For patterns with non-greedy repetitions or {0} the equivalence is false, as dropped_unchecked shows: aé*? is accepted in ASCII. Proved for every pattern: an acceptable one is accepted, and an accepted one can be read, has no lookaround, names a known encoding and does not match the empty string. The sum of the repetition bounds is below 2^30.

### C98 Parsing a pattern is always defined — partial

* Modelled: `Text.parseAndReduce`: UTF-8 decoding, lexer, grammar, character classes, rewriting.  Out of bounds accesses to sets and signed overflow are the outcome `.ub`.
* Proof: Induction over the grammar (`body_defined`): sets stay well-formed (C50) and numbers come from runs of digits in the text, traced through the lexer and the UTF-8 decoder (`lex_infix`, `decode_infix`); that the fuel suffices is C37.
* Theorems: `Defined.parsing_defined_partial`, `Defined.count_overflows`, `Defined.truncated_undefined`
* False for numbers of 2^31 or more behind { or , (count_overflows: signed overflow), and for texts that stop inside a UTF-8 sequence (truncated_undefined, C49). Proved for all other texts; Total says that ICU has a set for each property it knows and folds every set.

### C99 The histogram file tells how often each text was found — partial

* Modelled: `histLine`, `WriteHistogram`, `HistogramFile` (module HistFile) after C80's `searchCommand`.  The order of the hash table and of equal elements in `std::sort` is open, so `WriteHistogram` is a relation.
* Proof: The entries are those made by counting (`built_entries`, with C80's invariant); the comparator is the order of the specification (`comp_order`); cells have no separators (C50's `printed_text`), so that a table can be read in one way (`table_unique`, induction).
* Theorems: `Cmd.histogram_file`, `Cmd.table_unique`, `Cmd.histogram_readable_partial`, `Cmd.histogram_ambiguous`, `Cmd.tally_unique`, `Cmd.histogram_order_open`
* False for texts with backslashes: a line break and a backslash followed by n look the same (histogram_ambiguous). The order of lines is open when two keywords have the same number, as the lines of different keyword files have (histogram_order_open); otherwise tally_unique. When an input cannot be opened the file is left empty (in histogram_file).

### C100 A program written and read back searches like the original — partial

* Modelled: Module Loaded: blocks of memory that can be written and freed, handles that point into them, `lg_write_program`, `lg_read_program`, `loadProgram`. A freed block's memory is never handed out again in the model.
* Proof: `attach` finds the places whose contents `readProgram` returns (`attach_eq`); blocks and handles that a history leaves alone stay (`run_heap`, `run_prog`); every number of a compiled program fits in its field (`compiled_storable`, over the instructions emitted).
* Theorems: `Loaded.kept_buffer_partial`, `Loaded.session_program_kept_partial`, `Loaded.program_file_dangles`
* False for the command: loadProgram gives its buffer back before the search starts, so that the whole search reads freed memory (program_file_dangles, finding 65). Proved for callers of lg_read_program that keep the buffer; sizes below 2^31. The Java binding, which has the same fault, is not modelled here.

### C101 The list of encodings says which names can be used — proved

* Modelled: `printEncodings` (module ListEnc) on the tables of C95 and on those of the build without ICU.
* Proof: `group` in closed form (`group_eq`, induction over the table); names end at the first line break (`list_unique`, induction); the look-up finds an entry of the same first encoding.
* Theorems: `EncTable.encodings_listed`, `EncTable.list_unique`, `EncTable.listed_selects`, `EncTable.plain_listed`
* For names without tabs and line breaks; that a listed name selects its encoding is proved when no two encodings have names that differ only in case (otherwise C95's lookup_spec says which counts). plain_listed is the whole list of the build without ICU.

### C102 Adding, compiling and searching always come to an end — proved

* Modelled: The modules of C67 and C10; all loops with step budgets, and the budget does not change a result.
* Proof: Each loop has a measure that goes down (`prune_ends`, `merge_ends`, `subset_ends` over the finitely many subset states, `label_ends`, `filter_found`); an invariant between requests (`Steady`); an accepted pattern matches something (`takes_inhabited`), so there is something to make; `compiled_never_out_of_bounds` for the calls.
* Theorems: `Session.session_ends`, `Session.requests_end`, `Fsm.finalize_ends`, `Session.asked_fine`
* For texts with a defined parse (C98) whose repetition bounds add up to less than 2^30. No parallel edges: determinization depth 0 or at least the number of states (the default is 2^32 - 1).

### C103 Fixed strings are found exactly where they occur — proved

* Modelled: The modules of C67 (parser in fixed-string mode, encoders, automaton, compiler, search).
* Proof: The tree of a fixed string is the row of its characters (`literally_of_parsed`, induction over the text), whose language is one string (`literal_lang`); leftmost matches of one string are its occurrences (`leftmost_occurrences`, induction over the data); `unpumped_text_hits` since one string cannot be pumped.
* Theorems: `Session.fixed_hits`, `Session.fixed_accepted`, `Session.keywords_found`, `Session.keyOf_unique`, `Session.leftmost_occurrences`
* Length of the keyword below 2^30; accepted in ASCII without ICU only under the name ASCII (C97). keywords_found needs fewer than 2^24 states and patterns and a determinization depth of 0 or at least the number of states.

### C104 Fixed strings are found in any case of letters — proved

* Modelled: As C103, with `literal` for letters in both cases; the closure of a set under case by ICU is a parameter.
* Proof: What a character is folded to is a class of the characters that stand for it (`folds_plain`, `folds_icu` from C43, `literal_caseless`), so that the language is that of the texts in any case; leftmost matches as in C103. No encoding of a character begins another (`chars_prefix`), so that a place has one text (`caselessAt_end`) and the hits are determined (`leftmost_unique`). Acceptance from C97.
* Theorems: `Session.caseless_hits`, `Session.caseless_accepted`, `Session.folds_plain`, `Session.folds_icu`, `Session.caselessAt_end`
* FoldsIcu says how the folding of the parser uses ICU's closure of a set, which is taken to close sets under an equivalence that has the letters of ASCII (as in C43). Acceptance for keywords below 2^30 bytes.

### C105 The command prints the occurrences of fixed strings — proved

* Modelled: The modules of C96 and C103.
* Proof: `command_compiled` and `compiled_hits` of C96 with `fixed_hits`, `fixed_accepted` and `keywords_found` of C103; with -i the same from C104 (`compiled_caseless`); for keyword files `files_compiled` in place of `command_compiled`; that a program is made (`items_work`) follows from `one_items` and `requests_count`, that the search ends from `command_ends`.
* Theorems: `Handles.command_fixed_works`, `Handles.command_fixed_hits`, `Handles.command_caseless_works`, `Handles.command_caseless_hits`, `Handles.file_fixed_hits`, `Handles.files_work`
* Keywords and names of encodings without tabs, line breaks, null characters and (encodings) commas (C76 is false for others); fewer than 2^24 states and patterns, determinization depth 0 or at least the number of states. The printed text is stated with the definitions of C80.

### C106 Every keyword that cannot be used is reported — partial

* Modelled: `Report`: the error objects on a heap, `Errors::extend`, `outputErrors`, `lg_free_error`, `validate`.
* Proof: The errors of one list are a row of objects (`put_with`, `recList_eq`), `extend` joins chains (`extend_kept`, with the invariant `Kept`: no object twice, the tail is the last), printing and freeing follow the chain (`output_holds`, `free_holds`).
* Theorems: `Handles.report_partial`, `Handles.silent_iff`, `Handles.runErrors_length`, `Handles.names_undefined`, `Handles.option_hides`, `Handles.samples_complaint`, `Handles.columns_inverted`
* Proved for keywords on the command line or in one file; false with several keyword files (names_undefined: a null file name is printed) and after an option that cannot be read (option_hides: earlier errors of the file are lost and leak). samples reports only the first error, always as pattern 0 (samples_complaint).

### C107 Of alternative strings, the first listed that occurs is reported — proved

* Modelled: The modules of C78; the tokens and the grammar of C58 and C71.
* Proof: The text is lexed into the characters of the strings and bars (`lex_anyOf`), which the grammar derives as alternatives (`re_anyOf`). The rewriter only reassociates them (`bare_reduce`). Merging keeps the order of the alternatives of strings (`words_stays`: the automaton of such a pattern is a tree, no state of which is entered from two others, `Branches`). Then C78; reading from left to right gives the list of hits (`reports_firstListed`).
* Theorems: `Session.any_of_hits`, `Session.listed_hits`, `Fsm.words_stays`
* any_of_hits is for texts of strings with | between them (special characters quoted), listed_hits for every text that is parsed into strings, alternatives and strings followed by alternatives. Strings with characters that the encoding does not have are left out of the list.

### C108 The pattern written from a parse tree matches what the pattern it was read from matches — partial

* Modelled: `Unparse`: unparser.cpp and `repetition` of parsenode.cpp, function by function; the loop of byteSetToCharacterClass is a fold over its 257 steps.
* Proof: An invariant of the loop says that what has been written is a row of characters and ranges (`Piece`) that make up the set so far, with hyphen and caret held back (`inv_step`, `inv_fold`, `classText_pieces`). Each piece is lexed back into tokens in any text that may follow (`lexes_class`, `lexes_tree`), and the tokens derive the tree up to the grouping of concatenations and alternatives (`text_parses`), which changes neither language nor preference (`regroup_lang`, `regroup_rests`). Then C78 and C81 speak of the same language.
* Theorems: `Unparse.written_matches_partial`, `Unparse.text_parses`, `Unparse.written_differently`, `Unparse.codes_written_differently`, `Unparse.hyphens_written_differently`, `Unparse.brackets_written_differently`, `Unparse.classes_written_differently`, `Unparse.assertions_not_written`
* Proved for Writable trees whose text has no two of - & ~ side by side: characters that need no escape, classes of characters up to U+00FF (or of all above) without the badly placed brackets, no bytes, no assertions. For all that is left out it is false, as the other theorems show.

### C109 The exit status says whether the command did its work — partial

* Modelled: `Whole`: `parse_opts` behind boost's parser, the options of all commands, `openOutput` and `main` with its exit status; files that can be opened or written, the messages and the decoding of hits are parameters.
* Proof: Case analysis on the run (`search_status`, `made_status`, `validate_status`), with `options_meaning` (C82), `inputs_searched_alone` (C80) for the inputs and `report_partial` (C106) for the errors. `validate_status_wrong` is a run with a keyword that does not parse and status 0.
* Theorems: `Whole.search_status`, `Whole.made_status`, `Whole.validate_status`, `Whole.validate_status_wrong`, `Whole.validate_silent`, `Whole.sample_status`, `Whole.unknown_command`
* Proved for search, graph and program, whenever they come to a defined end (several keyword files with errors: C106; program files: finding 65). False for validate: its status says nothing of the keywords (validate_status, validate_status_wrong); whether it writes nothing does (validate_silent).

### C110 From the command line to the printed lines — proved

* Modelled: `Whole` and the modules of C105.
* Proof: Names are looked up without regard to case, so capitals read as the same encoding (`capitals_read`, by induction on the chain). The options make the requests in capitals (`requests_cmdOf`); `command_works` gives the program and the end of the search (`lightgrep_runs`), `compiled_fixed` and `compiled_caseless` the hits.
* Theorems: `Whole.lightgrep_fixed`, `Whole.lightgrep_caseless`, `Chain.capitals_read`
* The number of states must be below 2^24 and within the determinization depth (no limit by default), the number of searches below 2^24. lightgrep_hits_partial (C96) says the same of keywords that are not fixed strings.

### C111 From a keyword file to the printed lines — proved

* Modelled: `Whole` and the modules of C105.
* Proof: The options name the file (`SearchesFor.keyFiles`), its lines make the requests (`listItems`, C76); `files_work` gives the program and the end of the search (`lightgrep_file_runs`), `compiled_fixed` and `compiled_caseless` the hits.
* Theorems: `Whole.lightgrep_file_fixed`
* One keyword file. The number of states must be below 2^24 and within the determinization depth (no limit by default), the number of searches below 2^24. lightgrep_file_hits_partial (C96) says the same of keywords that are not fixed strings.

### C112 The automaton can be read from what graph writes — partial

* Modelled: `Graphviz`: the text of the automaton, byte by byte; `Whole`: the command.
* Proof: The four forms of a transition are printed alike (`smallest_label`); lines and labels are taken apart from the left, each part ending at a character it cannot contain (`split_at`, `escaped_inj`, `tokens_inj`).
* Theorems: `Graphviz.graphs_alike_partial`, `Graphviz.graph_command`, `Graphviz.graph_accepts_partial`, `Graphviz.graph_read_partial`, `Graphviz.graph_shape`, `Graphviz.smallest_label`, `Graphviz.graphs_ambiguous`
* States, edges, their order and the texts of the labels are always determined (graph_shape). Which bytes a state takes is determined if the hyphen, the slash and the backslash are at no end of a range of its bytes; false without that (graphs_ambiguous, finding 77). WF holds of automata made from keywords (Verif.Fsm.Made.facts).

### C113 A program written by the command and read through the API — proved

* Modelled: `Whole`, `Marshal` and the modules of C105.
* Proof: `command_works` gives the program, `session_write_read` (C37) what is read back, `fixed_hits` (C103) and `caseless_hits` the hits; the search command makes its program of the same options (`program_searched`).
* Theorems: `Whole.program_fixed`, `Whole.program_caseless`, `Whole.program_searched`
* The number of states must be below 2^24 and within the determinization depth (no limit by default), the number of searches below 2^24. program_searched is about keywords of any kind. Reading the file back with --program-file is undefined (finding 65).

### C114 The listing of a program — proved

* Modelled: `Listing`: the text of the instructions, byte by byte; `Compiler`, `Whole`: the program and the command.
* Proof: The code generator emits whole instructions with their operands (`codegen_laid`, by the layout of C11); the text is taken apart from the left, the first two letters of a name saying which fields follow (`text_inj`), and each field ends at a character it cannot contain or has a fixed place.
* Theorems: `Listing.listing_read`, `Listing.codegen_laid`, `Whole.compiled_laid`, `Whole.listing_command`, `Whole.listing_works`, `Whole.listing_file_works`, `Whole.listings_alike`
* The listing says what the instructions and their operands are. It does not have the prefilter and the numbers of labels and checks, which the binary program has. Bytes are also printed as characters, so that a line break can be in the line of an instruction. The number of states must be below 2^24 and within the determinization depth (no limit by default).

### C115 The program that the command writes for a keyword file — proved

* Modelled: `Whole`, `Marshal` and the modules of C113, with the keyword file as in C41.
* Proof: `files_work` gives the program and its list, `items_storable` that keywords and encodings of a file of bytes can be stored, `session_write_read` (C37) what is read back, `fixed_hits` and `caseless_hits` the hits.
* Theorems: `Whole.program_file_fixed`, `Session.States.unique`
* The number of states must be below 2^24 and within the determinization depth (no limit by default), the number of searches below 2^24, and the written program below 2^31 bytes. For keywords of any kind there is program_file_hits_partial (C96).

## Findings about the code

Those marked (proved) have a theorem with a concrete witness; the others are from
reading.

1. (proved) The compiler uses 0 in jump tables for "no transition", but address 0 is
   also the address of the initial state's code: `(?:a(?:b|c|d|e))*af` loses a match
   (`Compiler.zero_landing_loses_match`, `Fsm.determinized_loses_match`).
2. (proved) `lg_starts_with` misses matches that end with the buffer's last bytes, and a
   buffer that fails the byte-pair test does not reset the context (C14).
3. (proved) Parallel edges make the compiler write behind a jump table
   (`Compiler.parallel_edges_overrun`); determinization with a limited depth makes such
   edges (`Fsm.limited_overruns`).
4. (proved) `RangeSet(bitset)` drops a trailing run (`RangeSet.rangeSet_fromBits_small_wrong`).
5. (proved) `ByteEncoder::write(const byte[], int&)` ignores its input
   (`Transforms.byteEncoder_read_ignores`).
6. (proved) `lg_add_pattern_list` returns -1 even on success and dereferences a null error
   argument; blank lines are not counted in line numbers.
7. (proved) `has_only_zero_length_match` looks only at the left branch of an alternation, so
   matches of the right branch are lost (`Regex.empty_branch_loses_match`).
8. `skipRange` does not handle a range straddling the surrogates; callers exclude it.
9. (proved in part) Rotations by more than 26 are not undone; malformed serialized programs
   are read out of bounds (`Marshal.malformed_not_refused`); `ByteSet::set` needs an ordered
   range; `VectorFamily::at` ignores the index for single elements; `mergeIntoFSM` reads
   through a dangling reference; `Graph::removeVertex` changes a list it walks.
10. (proved) A second `lg_create_program` on the same FSM hangs or loses keywords
    (`Label.recompile_hangs`, `Label.recompile_loses_keyword`).
11. (proved) `(ab??){2}` loses `aba`: trailing non-greedy reduction goes into repetitions
    (`Regex.nested_nongreedy_loses_match`).
12. (proved) `lg_closeout_search` behaves differently without a callback
    (`Vm.closeOut_callback_matters`).
13. (proved) A pattern text that ends inside a UTF-8 sequence is read past its end
    (`Utf.patternText_overruns`).
14. (proved) `lg_read_window` returns a wrong count of bad values when there is no leading
    context (`Decoders.window_bad_count_wrong`).
15. XOR cannot be reached through `EncoderFactory`.
16. Patterns with an embedded NUL are truncated by the C API.
17. (proved in part) The command-line tool: block size 0 searches nothing; 2^31-1 context lines overflow.
18. `--`, `&&` and `~~` outside character classes are single atoms; repetition counts overflow
    a signed int (proved, `Defined.count_overflows`).
19. The builder's case for `{0,0}` is never reached.
20. The code generator treats vertex 0 specially and relies on it having no transition.
21. (proved) A match state without label makes the VM index out of bounds
    (`Compiler.unlabelled_match_out_of_bounds`); the labelling excludes it.
22. (proved) Merging a pattern into the FSM can change which of its matches is preferred
    (`Optimizer.merge_reorders`).
23. `CachingEncoder` computes an entry twice on a miss.
24. (proved) The error for an empty pattern has the range [0,1), outside the text
    (`Parser.empty_pattern_error`).
25. Unions of character classes ignore whether the right operand is additive; `[^[^a\zFF]]` is
    not the identity.
26. An option switch directly behind `|` is a syntax error; `a*{3}` is `a*` followed by the
    text `{3}`; `[\zAA-b]` and `[a-\zAA]` are errors; switches leak out of lookaround groups.
27. `lg_read_window`: if a hit ends inside a character the last character behind it may be cut.
28. (proved) `nodesUpperBound` is not an upper bound for `\b` (`Text.upper_bound_is_none`); the
    doubling in `ParseTree::init` saves it.
29. `lg_parse_pattern` and `lg_add_pattern` dereference a null error argument on failure.
30. (proved) Without ICU, `EncoderFactory::get` refuses `US-ASCII` and `ascii`, which
    `lg_get_encoding_id` knows, and every chain with ASCII in it (`Chain.ascii_names_refused`).
31. (proved) `matchgen` (the `samples` command) pushes a vertex twice when it backtracks, so that
    samples need not match and a walk need not end (`sample_no_match`, `samples_hang`); it takes the
    last element of an empty vector for a loop limit of 0 and for no patterns.
32. (proved) Whether the bytes of a class are added to its characters or taken away is decided
    by the first operand of each set operation: `[b[^a\zFF]]` accepts the byte FF and
    `[[^a\zFF]b]` does not (`Meaning.union_order_matters`).
33. (proved) Merging consecutive repetitions of the same expression can change which match is
    preferred: `(x|xy){1,2}(x|xy){1,2}` and `(x|xy){2,4}` on `xxyx`
    (`Regex.combine_changes_preferred`).
34. (proved) Where a match can end before something that is tried later, the automaton goes on
    nevertheless: for `a(?:b?|c)` a backtracking matcher reports "a" in "ac", the automaton
    prefers "ac" (`ends_reorder`).
35. (proved) When what is repeated can match nothing before something that is tried later, the
    automaton agrees with no rule for empty rounds: for `(?:b|a??)*(?:aa|a)` it prefers "aa" in
    "aaa", where a backtracking matcher that gives up empty rounds takes all (`rounds_reorder`).
36. (proved) A keyword given with `-p` that contains a tab makes all keywords be ignored, one with
    a line break is taken for two, and for an empty one the list of encodings is taken for the
    keyword (`tab_ignores_all`, `break_splits`, `empty_shifts`).
37. (proved) Counting or showing the text of a hit of a file that is not memory mapped reads memory
    before the buffer when the hit began in an earlier block, which includes every hit held back to
    the end of the search: the last block is empty, so for `a+` in the file `a` the hit is reported
    while the current buffer is the empty one (`plus_read_outside`, `earlier_hit_outside`).
38. When a hit in a memory mapped file ended before the current block, `End - BufOff` wraps and the
    context shown runs to the end of the block; context never includes lines before the block.
    Lines are found by the byte 0x0A, so in UTF-16 and UTF-32 a context can begin inside a character.
39. One input that cannot be opened, such as an empty line in a list of inputs, ends the search
    command: the inputs after it are not searched and the histogram is not written.
40. `-` means standard input only if the current directory has no directory of that name; otherwise it
    is skipped, or with `--recursive` traversed.
41. `-` as a line of a list passes the check that mapped input is not standard input; with context
    asked for, the context is then looked for in one block (`context_not_mapped`).
42. With `-C`, `-A` and `-B` are ignored. Paths are printed by default even for a single named file,
    contrary to the comment in `validateAndPopulateSearchOptions`.

43. (proved) `LGUtil.getHitContext` of the Java binding does not check that the decoder has not been
    destroyed, and a null pointer is dereferenced (`hit_context_destroyed_decoder`).
44. (proved) `ProgramHandle.read` of the Java binding can never return a program: `ProgramHandle` has no
    `init`, so the id of its constructor is never looked up, and it has no constructor from a long
    (`read_program_fails`, `read_program_wild`).
45. (proved) `ProgramHandle.write` writes past the array for programs of 2^31 bytes or more, whose size
    is negative in Java (`write_program_large`).
46. (proved) `ContextHandle.search` gives the offset that the library returns as an int, truncated
    (`search_result_truncated`).
47. (proved) Searching a read-only heap `ByteBuffer` moves its position, other buffers stay as they are
    (`read_only_buffer_moves`).
48. (proved) `getHitContext` refuses a hit when the offset of the end of the data exceeds the range of
    long (`hit_context_overflow`).
49. (proved) `Determinize` in Java asks for the depth 1 (`determinize_on_overruns`).
50. (proved) JNI's strings are modified UTF-8, and the library's UTF-8: a pattern with a character
    outside the basic plane is refused (`supplementary_refused`), and text with one is handed to
    `NewStringUTF` in a form that it does not define (`supplementary_to_java`).
51. (proved) `HitContext.HitBegin` and `HitEnd` count bytes of UTF-8, although the text is a Java string:
    they are too large as soon as something before is not ASCII (`context_positions`).
52. The comment in `callbackShim` that `lg_search` lets exceptions pass is outdated: they are caught, the
    search returns -1, and the pending Java exception is thrown afterwards.

53. (proved, `Python.none_for_zero`) `Context.search` in Python returns `None` where the C function returns 0, because the
    result type of `lg_search` is declared as a pointer.
54. (proved, `Python.null_cuts`) A Python pattern that contains U+0000 is cut there and the rest ignored, without an exception.
55. (proved, `Python.half_searched`) `buf_range` counts items, not bytes: of an `array('H')` or a memoryview of wider items only the
    first part is searched.
56. (proved, `Python.user_index_wraps`) The user index is passed as a C `int`: indices that differ by 2^32 are the same to the library.
57. `_checkHandleForErrors` compares the result with 0, but ctypes gives `None` for a null pointer, so it never raises; a constructor
    for which the library could make no object gives a closed handle.  Only `Program.__init__` checks.
58. (proved, `Python.buffer_after_search`) `searchBuffer` resets the context after the search, not before: after an unfinished
    `search` it reports a hit that starts in the earlier data, with an offset that belongs to it.
59. `context_hit_begin` and `context_hit_end` of Python's `full_hit_context` count bytes of UTF-8, although `hit_context` is a string
    (as finding 51); `ProgOpts` has 10 as its default depth, for which finding about limited depths (C54) applies.
60. (proved, `EncTable.never_replaced`) The generator of the encoding table means to settle conflicts between aliases by a preference
    among standards, but asks for the standard names of the same string twice, so that the first encoding always keeps the alias.
    Had it replaced an entry it would have stored the number among all of ICU's encodings, including those left out,
    instead of the number among the canonical names (encodings.cpp:172).
61. The generator compares with the number of all encodings when it decides whether to put a comma after a canonical name
    (harmless); `ICUConverter::cp_to_bytes` passes the size of a pointer as the size of the pivot buffer, twice what is
    allocated (harmless: one character needs two units).
62. (proved, `EncTable.one_way_class`) In an ICU encoding with a one-way mapping a character that is written but not named as valid
    matches as a literal `x` but not as `[x]`.
63. (proved, `Session.dropped_unchecked`) The rewriter drops trailing non-greedy parts and parts repeated `{0}` before the encoder sees them, so `aé*?` and `é{0}a` are accepted in ASCII while `aé*` is refused.
64. (proved, `Cmd.histogram_ambiguous`, `Cmd.histogram_order_open`) The histogram file escapes control characters with a backslash but not the backslash itself, so two
    lines with the same text can stand for different texts; lines of keywords that have the same number (in different keyword files) and the same
    count and text come in an order that is not specified. When an input cannot be opened the file, emptied at the start, stays empty.
65. (proved, `Loaded.program_file_dangles`) `loadProgram` in main.cpp reads the program file into a local vector and calls `lg_read_program`, which keeps
    pointers into that buffer (api.h: the caller frees it after `lg_destroy_program`); the vector is destroyed on return. Every search with
    `--program-file` executes freed memory. The Java binding releases the array elements before it returns the handle (but reading fails anyway,
    C85); the Python binding keeps no reference to the object it reads from, so `Program(bytes(...))` depends on the caller keeping it.
66. (proved, `Handles.names_undefined`) With several keyword files the commands print the name of the file before each error, but only the errors of blank
    lines carry it: for every other error (`lg_parse_pattern`, `lg_add_pattern`, the handler of exceptions) `Source` is null and `operator<<` is given
    a null `const char*`, which is undefined.
67. (proved, `Handles.option_hides`) When an option column of a keyword file cannot be read, the handler of the exception writes over the pointer to the
    errors recorded before: they are never reported nor freed, and the report names neither line nor pattern (`pattern -1`).
68. (proved, `Handles.samples_complaint`) `samples` reports only the first error, always as one of pattern 0, and prints a null `Pattern` when that error is a blank
    line or an unreadable option.
69. (proved, `Handles.columns_inverted`) api.h documents the fourth and fifth column of a keyword list as `casesensitive` and `asciimode`; 1 there sets
    case-insensitivity and Unicode mode.
70. (proved, `Unparse.written_differently`) `unparse` does not escape special characters outside classes: `\*` is written as `*`, `a\{3}` as `a{3}`.
71. (proved, `Unparse.codes_written_differently`) `unparse` writes U+0100 as `\x100` (two characters) and the byte `\zFF` as the character `\xFF`.
72. (proved, `Unparse.hyphens_written_differently`) `-` followed by a repeated `-` is written as `--*`, and the grammar takes `--` as one operand of `*`.
73. (proved, `Unparse.brackets_written_differently`) Inside classes `[` is never escaped, and `]` is not after `^` or after characters of the same run, so
    `[\[]`, `[^\]]` and `[\\\]]` are refused or read as something else.
74. (proved, `Unparse.classes_written_differently`) `unparse` drops the characters above U+00FF and the bytes of a class; a class without others becomes
    all characters above U+00FF.
75. (proved, `Unparse.assertions_not_written`) `unparse` throws for assertions, also for the ones that `^`, `$` and `\b` stand for.
76. (proved, `Whole.validate_status_wrong`) README.md says that `-c validate` returns nonzero if some pattern cannot be parsed. `validate` prints the errors
    and returns; the status is 0 whenever the options go together (`Whole.validate_status`). `-c sample` exits with 0 after an error as well.
77. (proved, `Graphviz.graphs_ambiguous`) `graph` writes the same for the keywords `[+\-a]` and `[+-a]`: a hyphen in a label can be the byte or the sign
    for a range. Likewise a slash can be the byte or come before the number of the keyword, and a backslash can be the byte or begin `\xHH`.

## Wrong programs

Each line of `seeded/LOG.jsonl` is one edit of the model in a scratch copy and the
theorems that no longer proved.  Edits that no theorem noticed led to stronger
theorems, or are listed with the reason (the edit does not change any observable
behaviour, for instance a different but equivalent loop bound).

## Axioms of each theorem

As printed by `#print axioms`, for the theorems named in `MANIFEST.json`.

* none: `ByteSet.byteSet_reversed_wrong`, `EncTable.never_replaced`, `Java.search_result_truncated`, `Python.half_searched`.

* `propext`: `Cmd.block_size_zero`, `Cmd.list_lines`, `Cmd.walk_visits_all`, `Decoders.converted_text`, `Handles.break_splits`, `Handles.empty_shifts`, `Handles.option_hides`, `Handles.pattern_list_never_reports_success`, `Handles.tab_ignores_all`, `Java.destroy_twice`, `Java.destroyed_decoder_used`, `Java.hit_context_destroyed_decoder`, `Java.hit_context_overflow`, `Python.buffer_after_search`, `Python.buffer_whole`, `RangeSet.rangeSet_fromBits_small_wrong`, `Regex.combine_changes_preferred`, `SparseSet.sparseSet_unfilled_unsound`, `Utf.patternText_overruns`, `Vm.closeOut_callback_matters`, `Vm.decreasing_offsets_break_order`, `Vm.startsWith_on_used_context`.

* `Quot.sound`, `propext`: `Cmd.context_lines_overflow`, `Cmd.context_lines_partial`, `Cmd.context_not_mapped`, `Cmd.earlier_hit_outside`, `Cmd.histogram_ambiguous`, `Cmd.histogram_counts`, `Cmd.inputs_searched_alone`, `Cmd.stdin_searched`, `Cmd.table_unique`, `Compiler.parallel_edges_overrun`, `Compiler.unlabelled_match_out_of_bounds`, `Decoders.converted_unique`, `Defined.count_overflows`, `Defined.truncated_undefined`, `EncTable.list_unique`, `Fsm.limited_overruns`, `Handles.columns_inverted`, `Java.close_all_frees`, `Java.destroy_keeps`, `Java.determinize_on_overruns`, `Java.hit_numbers`, `Java.java_handles_partial`, `Java.read_only_buffer_moves`, `Java.read_program_fails`, `Java.search_buffer_position`, `Java.search_result_partial`, `JavaText.newString_unique`, `Label.label_ends`, `Label.recompile_hangs`, `Loaded.kept_buffer_partial`, `Loaded.program_file_dangles`, `Marshal.malformed_not_refused`, `Marshal.write_read`, `MatchGen.samples_no_loops`, `MatchGen.samples_no_patterns`, `Parser.empty_pattern_error`, `Python.buffers_alone`, `Python.close_closes`, `Python.closed_refused`, `Python.counts_tally`, `Python.python_handles`, `Sequences.removeRightDuplicates_first`, `Sequences.removeRightDuplicates_set`, `Session.leftmost_occurrences`, `Text.upper_bound_is_none`, `Transforms.byteChain_undone`, `Transforms.byteEncoder_read_ignores`, `Transforms.byteEncoder_write_undone`, `Transforms.byteTransform_undone`, `Transition.factory_get_allowed`, `Vm.callback_does_not_influence`, `Vm.hits_are_matches`, `Vm.reset_is_fresh`, `Vm.startsWith_hits_at_start`, `Vm.startsWith_leaves_fresh`, `Vm.starts_sound`.

* `Classical.choice`, `Quot.sound`, `propext`: `BestPair.filter_found`, `BestPair.filter_never_rejects`, `ByteSet.byteSet_forEach`, `ByteSet.byteSet_setRange`, `Chain.ascii_names_refused`, `Chain.capitals_read`, `Chain.chain_decodes`, `Chain.chain_meaning`, `Chain.factory_init`, `Chain.factory_put`, `Chain.plain_names`, `Cmd.command_ends`, `Cmd.context_columns`, `Cmd.context_text_partial`, `Cmd.file_blocks`, `Cmd.histogram_file`, `Cmd.histogram_order`, `Cmd.histogram_order_open`, `Cmd.histogram_readable_partial`, `Cmd.hit_columns`, `Cmd.hit_text_partial`, `Cmd.icu_hit_text`, `Cmd.icu_mapped_hit_text`, `Cmd.mapped_histogram`, `Cmd.mapped_hit_text`, `Cmd.options_meaning`, `Cmd.options_style`, `Cmd.plus_read_outside`, `Cmd.printed_text`, `Cmd.search_file`, `Cmd.search_file_ends`, `Cmd.search_mapped_file`, `Cmd.stdin_once`, `Cmd.tally_unique`, `Compiler.codegen_never_ub`, `Compiler.compiled_hits_are_matches`, `Compiler.compiled_language_partial`, `Compiler.compiled_never_out_of_bounds`, `Compiler.compiled_sound`, `Compiler.cuts_agree`, `Compiler.encodes_of_small`, `Compiler.filterOff_lt`, `Compiler.hits_leftmost_partial`, `Compiler.hits_preferred_partial`, `Compiler.layout_consistent_partial`, `Compiler.matches_are_covered_partial`, `Compiler.preferred_unique`, `Compiler.resolve_agrees`, `Compiler.resolve_covers_partial`, `Compiler.searches_end`, `Compiler.starts_with_agrees`, `Compiler.zero_landing_loses_match`, `Decoders.decoded_unique`, `Decoders.decoder_stream`, `Decoders.hit_context_text`, `Decoders.icu_hit_context_text`, `Decoders.icu_stream`, `Decoders.icu_window_bad_count_partial`, `Decoders.icu_window_bad_count_wrong`, `Decoders.icu_window_decodes_partial`, `Decoders.window_bad_count_partial`, `Decoders.window_bad_count_wrong`, `Decoders.window_decodes_partial`, `Decoders.window_trailing`, `Defined.parsing_defined_partial`, `EncTable.encodings_listed`, `EncTable.listed_selects`, `EncTable.lookup_spec`, `EncTable.plain_listed`, `EncTable.sample_encoder`, `EncTable.tables_spec`, `Encoders.anyEntry_answers`, `Encoders.ascii_class_exact`, `Encoders.base_class_exact`, `Encoders.cache_keeps_answers`, `Encoders.class_exact`, `Encoders.collapsing_keeps_strings`, `Encoders.leaf_exact`, `Encoders.leaves_exact`, `Encoders.utf_class_exact`, `Fsm.add_all`, `Fsm.add_all_preferred`, `Fsm.add_pattern`, `Fsm.add_pattern_ends`, `Fsm.adding_ends`, `Fsm.bounded_covered`, `Fsm.bounded_hits`, `Fsm.bounded_language`, `Fsm.bounded_noZero`, `Fsm.bounded_preferred`, `Fsm.bounded_starts_with`, `Fsm.clear_stays`, `Fsm.determinized_loses_match`, `Fsm.finalize_ends`, `Fsm.finalize_preferred`, `Fsm.finalize_throws`, `Fsm.finalized_hits_partial`, `Fsm.finalized_parallel`, `Fsm.finalized_search_ends`, `Fsm.hits_backtrack_partial`, `Fsm.hits_same_partial`, `Fsm.pattern_hits_partial`, `Fsm.pipeline_cuts_agree`, `Fsm.pipeline_hits_match`, `Fsm.pipeline_never_out_of_bounds`, `Fsm.search_ends`, `Fsm.starts_with_misses`, `Fsm.starts_with_partial`, `Fsm.unpumped_backtrack_partial`, `Fsm.unpumped_covered`, `Fsm.unpumped_hits`, `Fsm.unpumped_language`, `Fsm.unpumped_noZero`, `Fsm.unpumped_of_bounded`, `Fsm.unpumped_of_heads`, `Fsm.unpumped_of_once`, `Fsm.unpumped_preferred`, `Fsm.unpumped_resolve`, `Fsm.unpumped_starts_with`, `Fsm.words_stays`, `Graphviz.graph_accepts_partial`, `Graphviz.graph_command`, `Graphviz.graph_read_partial`, `Graphviz.graph_shape`, `Graphviz.graphs_alike_partial`, `Graphviz.graphs_ambiguous`, `Graphviz.smallest_label`, `Handles.command_caseless_hits`, `Handles.command_caseless_works`, `Handles.command_compiled`, `Handles.command_fixed_hits`, `Handles.command_fixed_works`, `Handles.command_hits_partial`, `Handles.command_line_partial`, `Handles.command_works`, `Handles.file_fixed_hits`, `Handles.file_hits_partial`, `Handles.files_compiled`, `Handles.files_in_order`, `Handles.files_work`, `Handles.keyword_indices`, `Handles.names_undefined`, `Handles.one_items`, `Handles.pattern_list_needs_error_argument`, `Handles.pattern_list_partial`, `Handles.program_list_frozen`, `Handles.report_partial`, `Handles.runErrors_length`, `Handles.samples_complaint`, `Handles.silent_iff`, `Java.determinize_off_partial`, `Java.hit_context_array_partial`, `Java.hit_context_buffer_partial`, `Java.read_program_wild`, `Java.search_array`, `Java.search_buffer`, `Java.user_index_roundtrip`, `Java.write_program_large`, `Java.write_program_partial`, `JavaText.context_positions`, `JavaText.context_to_java_partial`, `JavaText.pattern_text_partial`, `JavaText.pattern_text_refused`, `JavaText.supplementary_refused`, `JavaText.supplementary_to_java`, `JavaText.text_to_java_partial`, `Label.guards_crossed`, `Label.label_guards`, `Label.label_language`, `Label.recompile_loses_keyword`, `Label.recompile_partial`, `Lexer.asks_iff`, `Lexer.made_of_once`, `Lexer.number_iff`, `Lexer.text_meaning`, `Lexer.text_says_iff`, `Lexer.tokens_iff`, `Listing.codegen_laid`, `Listing.listing_read`, `Loaded.session_program_kept_partial`, `Loaded.session_write_read`, `Malformed.accepted_wellformed`, `Malformed.malformed_refused`, `Marshal.truncated_refused`, `MatchGen.sample_no_match`, `MatchGen.samples_contain_partial`, `MatchGen.samples_hang`, `MatchGen.samples_match_partial`, `Meaning.asked_for_is_hit`, `Meaning.class_meaning`, `Meaning.hits_are_asked_for`, `Meaning.plain_reading`, `Meaning.text_meaning`, `Meaning.text_says_once`, `Meaning.union_order_matters`, `NfaBuilder.builder_language`, `NfaBuilder.built_prefers`, `NfaBuilder.counted_repetition`, `NfaBuilder.ends_reorder`, `NfaBuilder.label_preferred`, `NfaBuilder.pattern_language`, `NfaBuilder.pattern_refused_iff_empty`, `NfaBuilder.preferred_iff_follow`, `NfaBuilder.pruned_prefers`, `NfaBuilder.refused_iff_empty`, `NfaBuilder.rounds_reorder`, `Optimizer.merge_combined`, `Optimizer.merge_ends`, `Optimizer.merge_keeps`, `Optimizer.merge_language`, `Optimizer.merge_orderly`, `Optimizer.merge_reorders`, `Optimizer.prune_ends`, `Optimizer.prune_preferred`, `ParseUtil.builtin_classes`, `ParseUtil.case_folding`, `ParseUtil.case_folding_icu`, `ParseUtil.numeric_escape`, `Parser.error_names_fault`, `Parser.error_range_in_pattern`, `Parser.fixed_refused`, `Parser.fixed_text`, `Parser.fixed_text_cased`, `Parser.nothing_says`, `Parser.parse_iff_derives`, `Parser.plain_text`, `Parser.quoted_is_fixed`, `Parser.text_doomed`, `Parser.tokens_doomed`, `Python.context_to_python`, `Python.hits_named`, `Python.null_cuts`, `Python.patterns_added`, `RangeSet.rangeSet_eq`, `RangeSet.rangeSet_fromBits`, `RangeSet.rangeSet_iteration`, `RangeSet.rangeSet_queries`, `RangeSet.rangeSet_test`, `Regex.empty_branch_loses_match`, `Regex.nested_nongreedy_loses_match`, `Regex.nongreedy_reduction_partial`, `Regex.nongreedy_reduction_preferred`, `Regex.reduce_leaves_all`, `Regex.reduce_nil`, `Regex.reduce_places_partial`, `Regex.reduce_preferred_partial`, `Regex.reduce_preserves_language_partial`, `Regex.reduce_sub`, `Regex.rewrites_preserve_language`, `Regex.zero_length_test`, `Regex.zero_length_test_root`, `Session.States.unique`, `Session.accepted_iff_partial`, `Session.any_of_hits`, `Session.asked_fine`, `Session.bounded_text_hits`, `Session.caselessAt_end`, `Session.caseless_accepted`, `Session.caseless_hits`, `Session.chars_prefix`, `Session.clear_text_backtrack_partial`, `Session.dropped_unchecked`, `Session.fixed_accepted`, `Session.fixed_hits`, `Session.folds_icu`, `Session.folds_plain`, `Session.keyOf_unique`, `Session.keywords_found`, `Session.listed_hits`, `Session.request_decided`, `Session.requests_end`, `Session.sample_compiled`, `Session.session_ends`, `Session.text_backtrack_partial`, `Session.text_hits_at`, `Session.text_hits_match`, `Session.text_hits_partial`, `Session.unpumped_noZero`, `Session.unpumped_of_bounded`, `Session.unpumped_of_heads`, `Session.unpumped_text_backtrack_partial`, `Session.unpumped_text_hits`, `SparseSet.sparseSet_refines_set`, `SparseSet.sparseSet_size`, `Stored.compiled_storable`, `Subset.subset_ends`, `Subset.subset_language`, `Subset.subset_preferred`, `Subset.subset_shape`, `Text.nodes_fit`, `Text.shortcuts_are_sound`, `Transforms.rotEncoder_roundTrip_partial`, `Transforms.rot_large_not_undone`, `Transforms.rot_undone_partial`, `Transition.getSmallest_allowed`, `Transition.smallest_transition_exact`, `Unparse.assertions_not_written`, `Unparse.brackets_written_differently`, `Unparse.classes_written_differently`, `Unparse.codes_written_differently`, `Unparse.hyphens_written_differently`, `Unparse.text_parses`, `Unparse.written_differently`, `Unparse.written_matches_partial`, `Utf.patternText_decodes`, `Utf.patternText_inside_partial`, `Utf.utf16_inverse`, `Utf.utf32_inverse`, `Utf.utf8_inverse`, `VectorFamily.vectorFamily_refines_lists`, `Vm.hit_windows_inside_data`, `Vm.hits_apart_after_reset`, `Vm.hits_of_keyword_apart`, `Vm.return_value_bounds_later_hits`, `Whole.compiled_laid`, `Whole.lightgrep_caseless`, `Whole.lightgrep_file_fixed`, `Whole.lightgrep_file_hits_partial`, `Whole.lightgrep_fixed`, `Whole.lightgrep_hits_partial`, `Whole.listing_command`, `Whole.listing_file_works`, `Whole.listing_works`, `Whole.listings_alike`, `Whole.made_status`, `Whole.program_caseless`, `Whole.program_file_fixed`, `Whole.program_file_hits_partial`, `Whole.program_fixed`, `Whole.program_hits_partial`, `Whole.program_searched`, `Whole.sample_status`, `Whole.search_status`, `Whole.unknown_command`, `Whole.validate_silent`, `Whole.validate_status`, `Whole.validate_status_wrong`.

