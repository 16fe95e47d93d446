{"id": "C01", "title": "Hits of one keyword never overlap and come out in order", "statement": "For any program and any sequence of lg_search, lg_search_resolve, lg_closeout_search calls on one context (with any buffers, and start offsets that never go back behind data already searched) between two lg_reset_context calls, if two hits for the same KeywordIndex are reported, the later one starts at or after the end of the earlier one.", "quantifier": "every program, every history of calls with non-decreasing offsets, every buffer content", "why_tests_cant": "the claim is about the pair of any two hits in an unbounded call history; a test only samples short histories", "anchors": ["src/lib/vm.cpp: Vm::_executeEpsilon FINISH_OP, Vm::closeOut, Vm::_executeEpSequence", "include/lightgrep/api.h: lg_search"]}
{"id": "C02", "title": "A reset context behaves like a new one", "statement": "After lg_reset_context, every later sequence of calls reports exactly the hits and return values that the same sequence would produce on a context freshly created from the same program, whatever was done before the reset.", "quantifier": "every program, every prior history, every later history", "why_tests_cant": "stale thread lists, locks or match ends only matter for particular earlier histories", "anchors": ["src/lib/vm.cpp: Vm::Vm, Vm::reset", "include/sparseset.h: SparseSet::clear"]}
{"id": "C03", "title": "Hit windows lie inside the data that was searched", "statement": "For a context searched contiguously from offset o (each call starting where the previous ended), every reported hit [Start,End) satisfies o <= Start < End <= current end of the data supplied so far.", "quantifier": "every program whose every path consumes a byte before matching, every contiguous history", "why_tests_cant": "must hold for every byte stream and split into buffers", "anchors": ["src/lib/vm.cpp: Vm::search, Vm::_executeFrame, Vm::_executeEpsilon MATCH_OP"]}
{"id": "C04", "title": "How the data is cut into buffers does not matter", "statement": "Searching a byte stream as one buffer or as any sequence of consecutive buffers (with increasing start offsets), then closing out, reports the same hits.", "quantifier": "every program, every stream, every way of cutting it", "why_tests_cant": "the number of ways to cut a stream is exponential and the byte-pair filter treats the tail of each buffer specially", "anchors": ["src/lib/vm.cpp: Vm::search, Vm::_executeFrame", "include/lightgrep/api.h: lg_search"]}
{"id": "C05", "title": "lg_starts_with reports only hits at the first byte and leaves the context reset", "statement": "On a new or reset context, every hit reported by lg_starts_with starts at startOffset, and afterwards the context behaves as if freshly reset.", "quantifier": "every program, buffer and offset", "why_tests_cant": "must hold for all inputs, including those where the pre-filter rejects the buffer", "anchors": ["src/lib/vm.cpp: Vm::startsWith"]}
{"id": "C06", "title": "lg_search's return value bounds later hits from below", "statement": "The value returned by lg_search (or lg_search_resolve) in a contiguous history is a lower bound for the Start of every hit reported by any later continuation of that search, including close-out.", "quantifier": "every program, every contiguous history and every continuation", "why_tests_cant": "a property of all futures of the search", "anchors": ["src/lib/vm.cpp: Vm::_startOfLeftmostLiveThread, Vm::search, Vm::searchResolve", "include/lightgrep/api.h: lg_search"]}
{"id": "C07", "title": "The hit callback does not influence the search", "statement": "lg_search and lg_search_resolve return the same value and leave the context in a state with the same future behaviour whether or not a callback is supplied; hits are delivered in the same order.", "quantifier": "every program, state and buffer", "why_tests_cant": "must hold for every state", "anchors": ["src/lib/vm.cpp: Vm::search, Vm::_executeEpsilon, Vm::closeOut"]}
{"id": "C08", "title": "Every hit is a real match of its keyword", "statement": "If a hit (Start,End,KeywordIndex) is reported then the bytes of the stream in [Start,End) are a match of the pattern with that index in its encoding, as denoted by the automaton compiled for it.", "quantifier": "every automaton, every compiled program, every stream and history", "why_tests_cant": "quantifies over all automata and inputs", "anchors": ["src/lib/vm.cpp", "src/lib/compiler.cpp: encodeState, createJumpTable, figureOutLanding"]}
{"id": "C09", "title": "No occurrence is silently lost", "statement": "If the keyword's automaton matches the bytes [s,e) of a fresh stream then, after close-out, some hit of that keyword has been reported whose interval contains offset s.", "quantifier": "every automaton, every stream", "why_tests_cant": "completeness over every input; the VM prunes threads with locks and priorities", "anchors": ["src/lib/vm.cpp: CHECK_HALT_OP, _liveCheck, FINISH_OP", "src/lib/compiler.cpp"]}
{"id": "C10", "title": "Compiled programs never leave their bounds", "statement": "Searching with a program produced by the compiler never reads an instruction outside the program, never indexes the per-label and per-check tables outside their size, and the per-byte work always terminates.", "quantifier": "every compiled program, every input", "why_tests_cant": "memory safety over all inputs", "anchors": ["src/lib/vm.cpp", "src/lib/codegen.cpp", "src/lib/compiler.cpp"]}
{"id": "C11", "title": "Code layout is consistent", "statement": "For every automaton whose states are all reachable, the sizes computed in the layout pass equal the number of instructions emitted for each state, so the snippets tile the program exactly, and the last two instructions are Halt and Finish.", "quantifier": "every automaton", "why_tests_cant": "size computation and emission are two separate passes that must agree on every graph", "anchors": ["src/lib/codegen.cpp: finish_vertex, calcJumpTableSize, specialVisit", "src/lib/compiler.cpp: encodeState, createJumpTable, minAndMaxValues"]}
{"id": "C12", "title": "Compilation preserves the automaton's language", "statement": "A thread of the compiled program can go from the start to a Finish with a label exactly on the byte strings the automaton accepts with that label.", "quantifier": "every automaton, every byte string", "why_tests_cant": "equivalence over infinitely many strings", "anchors": ["src/lib/compiler.cpp: encodeState, createJumpTable, figureOutLanding", "src/lib/vm.cpp: _execute JUMP_TABLE_RANGE_OP"]}
{"id": "C13", "title": "The byte-pair pre-filter never rejects a match", "statement": "For every automaton, if the data at some position begins with a match then either fewer than FilterOff+2 bytes remain or the two bytes at distance FilterOff are accepted by the program's filter.", "quantifier": "every automaton with at least one match, every data", "why_tests_cant": "a necessary-condition claim over all inputs", "anchors": ["src/lib/utility.cpp: bestPair"]}
{"id": "C14", "title": "lg_starts_with finds matches at the start of the buffer", "statement": "If a keyword matches a prefix of the buffer then lg_starts_with reports at least one hit for that keyword.", "quantifier": "every program and buffer", "why_tests_cant": "boundary between filter offset and buffer length", "anchors": ["src/lib/vm.cpp: Vm::startsWith", "src/lib/utility.cpp: bestPair"]}
{"id": "C15", "title": "The automaton built for a pattern accepts exactly the pattern's matches", "statement": "For every parsed pattern made of bytes, byte classes, alternation, concatenation and (non)greedy repetition, the automaton built accepts a byte string iff the pattern denotes it.", "quantifier": "every parse tree, every byte string", "why_tests_cant": "structural induction over all patterns", "anchors": ["src/lib/nfabuilder.cpp: literal, charClass, concatenate, alternate, repetition, patch_mid, finish"]}
{"id": "C16", "title": "Counted repetition means what it says", "statement": "T{n,m} (and T{n,}, T{n}) accepts exactly the strings made of at least n and at most m consecutive matches of T, whatever n and m.", "quantifier": "every n, m, T", "why_tests_cant": "the expansion is built by loops over n and m", "anchors": ["src/lib/nfabuilder.cpp: traverse"]}
{"id": "C17", "title": "Patterns that can match nothing are refused, others are not", "statement": "Adding a pattern fails with 'Empty matches' iff the (rewritten) pattern accepts the empty string, and then the FSM and pattern list are unchanged.", "quantifier": "every parse tree", "why_tests_cant": "all patterns", "anchors": ["src/lib/nfabuilder.cpp: finish", "src/lib/fsmthingy.cpp: addPattern", "src/lib/rewriter.cpp: hasZeroLengthMatch"]}
{"id": "C18", "title": "Tree rewriting does not change what a pattern matches", "statement": "Reassociation, merging of adjacent repetitions, removal of {1} and of empty subtrees leave the set of byte strings denoted by the pattern unchanged.", "quantifier": "every parse tree, every string", "why_tests_cant": "rewrites apply at arbitrary positions of arbitrary trees", "anchors": ["src/lib/rewriter.cpp: makeBinopsRightAssociative, combineConsecutiveRepetitions, reduceUselessRepetitions, reduceEmptySubtrees"]}
{"id": "C19", "title": "Non-greedy suffix reductions never lose matches", "statement": "The trailing non-greedy reductions leave unchanged which data contains a match of the pattern and where its preferred match ends.", "quantifier": "every parse tree, every data", "why_tests_cant": "needs all data and trees", "anchors": ["src/lib/rewriter.cpp: reduceTrailingNongreedyThenEmpty, reduceTrailingNongreedyThenGreedy"]}
{"id": "C20", "title": "Adding a keyword does not change the others", "statement": "After merging a pattern's automaton into the set, the combined automaton accepts with each earlier label exactly what it accepted before, and with the new label exactly what the new automaton accepts.", "quantifier": "every combined automaton reachable by adding patterns, every new automaton, every string", "why_tests_cant": "state sharing between keywords depends on all previous keywords", "anchors": ["src/lib/nfaoptimizer.cpp: mergeIntoFSM, processChild, canMerge"]}
{"id": "C21", "title": "Determinization preserves every keyword's language", "statement": "For every depth limit, subset construction yields an automaton accepting the same strings with the same labels as the original.", "quantifier": "every automaton, every depth limit, every string", "why_tests_cant": "infinitely many strings and depths", "anchors": ["src/lib/nfaoptimizer.cpp: subsetDFA, handleSubsetStateSuccessors, connectSubsetStateToOriginal, completeOriginal"]}
{"id": "C22", "title": "Branch pruning removes only branches that can never win", "statement": "Pruning edges behind a higher-priority match leaves unchanged, for every data, whether a match starts at a given position and the end of the preferred match.", "quantifier": "every automaton, every data", "why_tests_cant": "all inputs", "anchors": ["src/lib/nfaoptimizer.cpp: pruneBranches"]}
{"id": "C23", "title": "Every match path carries exactly its own keyword label", "statement": "After guard labelling, every path from the start to a match state crosses a labelled state, and every label crossed is the label of that match.", "quantifier": "every automaton", "why_tests_cant": "graph property over all paths, including cycles", "anchors": ["src/lib/nfaoptimizer.cpp: propagateMatchLabels, removeNonMinimalLabels"]}
{"id": "C24", "title": "Compiling does not spoil the FSM", "statement": "Calling lg_create_program leaves the FSM able to be compiled again (or extended with more patterns) with the same meaning.", "quantifier": "every FSM", "why_tests_cant": "a second compile after any first one", "anchors": ["src/lib/fsmthingy.cpp: finalizeGraph", "src/lib/nfaoptimizer.cpp: labelGuardStates", "src/lib/lightgrep_c_api.cpp: create_program"]}
{"id": "C25", "title": "Unicode sets behave as sets", "statement": "Every sequence of insert, erase, set, flip, union, intersection, difference and symmetric difference on a code-point set yields exactly the set the same operations give on mathematical sets; test, count, any, none, all and equality agree with it.", "quantifier": "every operation sequence, every element", "why_tests_cant": "arbitrary interleavings of boundary cases", "anchors": ["include/rangeset.h: RangeSet"]}
{"id": "C26", "title": "The sparse set used for locks and live labels is a set", "statement": "Under every sequence of insert (of absent elements) and clear, find(e) is true iff e was inserted since the last clear, independently of stale memory.", "quantifier": "every sequence, every initial memory content", "why_tests_cant": "stale array contents left by earlier use", "anchors": ["include/sparseset.h: SparseSet"]}
{"id": "C27", "title": "Byte-set range assignment and iteration are exact", "statement": "set(beg,end,v) changes exactly the bits in [beg,end) and for_each_set_bit visits exactly the set bits in increasing order.", "quantifier": "every 256-bit set, every beg <= end <= 256", "why_tests_cant": "all sets and ranges (2^256 sets)", "anchors": ["include/byteset.h: ByteSet::set, for_each_set_bit"]}
{"id": "C28", "title": "The compact adjacency lists behave as lists", "statement": "Under every sequence of add, insert, remove and clear, each list of the vector family reads back as the abstract list, and lists do not interfere.", "quantifier": "every operation sequence over any number of lists", "why_tests_cant": "shared backing store", "anchors": ["include/vectorfamily.h: VectorFamily", "include/simplevectorfamily.h", "include/graph.h: Graph"]}
{"id": "C29", "title": "The chosen transition encodes exactly its byte set", "statement": "For every non-empty byte set, the smallest-transition choice and the instruction it emits accept exactly the bytes of the set when executed.", "quantifier": "every byte set, every byte", "why_tests_cant": "2^256 byte sets", "anchors": ["include/transitionfactory.h: getSmallest", "src/lib/states.cpp", "src/lib/vm.cpp: _execute"]}
{"id": "C30", "title": "UTF-8 encoding and decoding are inverse", "statement": "Encoding then decoding any Unicode scalar value returns it and consumes exactly the bytes written; decoding accepts exactly the well-formed sequences and never reads past the end.", "quantifier": "every code point, every byte sequence", "why_tests_cant": "all scalars and all byte strings", "anchors": ["src/lib/utf8.cpp", "include/decoders/utf8.h", "include/encoders/utf8.h"]}
{"id": "C31", "title": "UTF-16 and UTF-32 encoding and decoding are inverse", "statement": "The same for UTF-16LE/BE and UTF-32LE/BE.", "quantifier": "every code point, every byte sequence", "why_tests_cant": "all scalars and byte strings", "anchors": ["include/encoders/utf16.h", "include/encoders/utf32.h", "include/decoders/utf16.h", "include/decoders/utf32.h"]}
{"id": "C32", "title": "A character class becomes exactly its encodings", "statement": "For every set of code points and every built-in Unicode encoding, the byte ranges generated for the class accept a byte string iff it is the encoding of a member.", "quantifier": "every subset of the code space, every byte string", "why_tests_cant": "2^1114112 sets", "anchors": ["src/lib/utfbase.cpp", "src/lib/utf8.cpp: collectRanges", "include/encoders/utfbase.h"]}
{"id": "C33", "title": "Merging byte ranges loses and adds nothing", "statement": "Collapsing a list of byte-set sequences (merging neighbours that differ in one position) leaves the set of byte strings denoted unchanged.", "quantifier": "every list of byte-set sequences", "why_tests_cant": "all lists", "anchors": ["src/lib/encoderbase.cpp: write"]}
{"id": "C34", "title": "Byte transformations are invertible", "statement": "XOR with any key, ROT-n and the Outlook compressible-encryption table are bijections, and decoding a transformed byte string returns the original.", "quantifier": "every key, every byte string", "why_tests_cant": "all keys and bytes", "anchors": ["include/encoders/xorencoder.h", "src/lib/oceencoder.cpp", "src/lib/byteencoder.cpp", "src/lib/decoders"]}
{"id": "C35", "title": "Decoders account for every byte", "statement": "Decoding any byte buffer yields code points and error values whose offsets are strictly increasing, start at the buffer start, and whose error values name the bytes at their offsets, ending with an END marker at the buffer end.", "quantifier": "every buffer, every decoder", "why_tests_cant": "all byte strings", "anchors": ["include/decoders/utfdecoderbase.h", "src/lib/decoders"]}
{"id": "C36", "title": "A decoded hit window contains the hit", "statement": "lg_read_window returns characters whose indices [begin,end) are exactly those decoded from the hit bytes, with at most the requested context before it, offsets within the buffer, and a bad-value count equal to the number of negative values returned.", "quantifier": "every buffer, hit and context size", "why_tests_cant": "all inputs", "anchors": ["src/lib/lightgrep_c_util.cpp: decode, readWindow"]}
{"id": "C37", "title": "Writing and reading back a program is lossless", "statement": "lg_read_program applied to the bytes written by lg_write_program gives a program and pattern list equal to the original, and lg_program_size is exactly the number of bytes written.", "quantifier": "every program and pattern list (patterns without NUL)", "why_tests_cant": "all programs", "anchors": ["src/lib/program.cpp: marshall, unmarshall", "src/lib/pattern_map.cpp", "src/lib/lightgrep_c_api.cpp: write_program, read_program, lg_program_size"]}
{"id": "C38", "title": "Truncated serialized programs are refused", "statement": "lg_read_program on any proper prefix of a serialized program returns null.", "quantifier": "every program, every prefix length", "why_tests_cant": "all prefixes of all programs", "anchors": ["src/lib/lightgrep_c_api.cpp: read_program"]}
{"id": "C39", "title": "Keyword indices are dense and stable", "statement": "The n-th successfully added pattern gets index n; its pattern text, encoding and user index can be read back under that index forever; failed additions change nothing.", "quantifier": "every sequence of additions", "why_tests_cant": "unbounded histories of successes and failures", "anchors": ["src/lib/lightgrep_c_api.cpp: addPattern, lg_add_pattern", "src/lib/pattern_map.cpp"]}
{"id": "C40", "title": "A program's pattern list is frozen", "statement": "Adding patterns to an FSM after a program was created from it never changes the program's pattern count or pattern information.", "quantifier": "every interleaving of additions and program creations", "why_tests_cant": "sharing and copy-on-write over histories", "anchors": ["src/lib/lightgrep_c_api.cpp: addPattern, create_program"]}
{"id": "C41", "title": "Pattern lists are parsed line by line", "statement": "lg_add_pattern_list adds one keyword per (line, encoding) in order, with user index equal to the line number, using defaults for omitted columns, and reports success or failure correctly.", "quantifier": "every pattern list text", "why_tests_cant": "all texts", "anchors": ["src/lib/lightgrep_c_api.cpp: addPatternList, addPatternHelper"]}
{"id": "C42", "title": "Numeric escapes denote the right value", "statement": "Hex, octal and U+ escapes in patterns parse to the number they denote, and out-of-range or malformed escapes are refused.", "quantifier": "every digit string", "why_tests_cant": "all digit strings", "anchors": ["include/parseutil.h: parseHexByte, parseHexCodePoint, parseOctByte"]}
{"id": "C43", "title": "ASCII case folding closes a set under ASCII case", "statement": "Case-insensitive ASCII mode yields the smallest superset of a class closed under swapping ASCII letter case, reporting correctly whether anything was added.", "quantifier": "every set of code points", "why_tests_cant": "all sets", "anchors": ["src/lib/parseutil.cpp: caseDesensitizeAscii"]}
{"id": "C44", "title": "Context lines around a hit are delimited by newlines", "statement": "For n lines of leading/trailing context the reported context starts right after (ends right before) the (n+1)-th newline before (after) the hit, or at the buffer boundary, and always contains the hit.", "quantifier": "every buffer, hit and n", "why_tests_cant": "all buffers", "anchors": ["src/cmd/hitwriter.cpp: find_leading_context, find_trailing_context"]}
{"id": "C45", "title": "The command-line search feeds every byte exactly once", "statement": "searchFile passes the file content to the search in consecutive blocks with consecutive offsets whose concatenation is the file, and the block being searched is never the buffer being filled.", "quantifier": "every file, block size and I/O schedule", "why_tests_cant": "asynchronous double buffering: all schedules", "anchors": ["src/cmd/searchcontroller.cpp: searchFile", "src/cmd/reader.cpp"]}
{"id": "C46", "title": "Histogram order is a strict weak order and counts are exact", "statement": "The histogram comparator is a strict weak ordering and each key's count is the number of hits with that key.", "quantifier": "every histogram, every hit sequence", "why_tests_cant": "sorting with an inconsistent comparator is undefined behaviour", "anchors": ["src/cmd/hitwriter.cpp: histogramKeyComp, writeHitToHistogram"]}
{"id": "C47", "title": "Zero-length analysis is right", "statement": "hasZeroLengthMatch answers true exactly for patterns that accept the empty string.", "quantifier": "every parse tree", "why_tests_cant": "all trees", "anchors": ["src/lib/rewriter.cpp: hasZeroLengthMatch, has_only_zero_length_match"]}
{"id": "C48", "title": "Duplicate removal keeps first occurrences", "statement": "removeRightDuplicates returns the list with every element kept exactly at its first occurrence, in order.", "quantifier": "every list", "why_tests_cant": "all lists", "anchors": ["include/sequences.h: removeRightDuplicates"]}
{"id": "C49", "title": "Decoding a pattern's text never reads past it and yields its code points", "statement": "When a pattern is handed to lg_parse_pattern as text, the characters the parser sees are exactly the code points the text encodes, and no byte beyond the end of the text is read.", "quantifier": "every byte string given as pattern text, including malformed and truncated UTF-8", "why_tests_cant": "the byte strings are unbounded and the overrun is invisible when the byte after the text happens to be harmless, so only reasoning over every truncation point settles it", "anchors": ["include/unicode.h: utf8_to_unicode, transform_to_unicode", "src/lib/re_grammar.ypp: parse"]}
{"id": "C50", "title": "Printed hit text never breaks the line format", "statement": "Whatever bytes a hit or its context contains, the text printed for it contains no tab, newline or carriage return, so each record stays one line with a fixed number of columns; text without control characters is printed unchanged.", "quantifier": "every decoded hit text and context", "why_tests_cant": "the text is arbitrary data from the searched file; a single unescaped character anywhere would corrupt the record", "anchors": ["src/cmd/hitwriter.cpp: writeContext, escapeControlChars"]}
{"id": "C51", "title": "Built-in character classes denote the documented sets", "statement": "In a pattern, \\d, \\w and \\s denote in ASCII mode exactly [0-9], [A-Za-z0-9_] and the six ASCII space characters; \\h and \\v denote the documented horizontal and vertical space characters in every mode, \\s outside ASCII mode their union, and the upper-case escapes the complements among all code points.", "quantifier": "every code point", "why_tests_cant": "1,114,112 code points for each of ten escapes, built by in-place interval arithmetic", "anchors": ["src/lib/parseutil.cpp: setDigitClass, setWordClass, setSpaceClass, setHorizontalSpaceClass, setVerticalSpaceClass", "src/lib/re_grammar.ypp: consumeEscape"]}
{"id": "C52", "title": "Hits of a keyword are its leftmost non-overlapping matches", "statement": "After searching a stream in any consecutive buffers and closing out, the hits reported for a keyword are: the match that starts leftmost, then the match that starts leftmost at or after the end of that hit, and so on until no match is left.", "quantifier": "every set of keywords, every stream, every division of it into buffers", "why_tests_cant": "whether a thread of the right start survives depends on how threads of all keywords and starts interact through locks, live labels and match ends at every byte", "anchors": ["src/lib/vm.cpp: _doSearch, _executeEpsilon, _liveCheck, closeOut", "src/lib/compiler.cpp: createProgram"]}
{"id": "C53", "title": "Among matches with the same start the automaton's preference decides", "statement": "Each hit reported after searching and closing out is, among all matches of its keyword starting at the same offset, the one along the way preferred by the automaton: an earlier branch is preferred to a later one, and going on is preferred to stopping. The hits of a keyword are thereby completely determined by the keywords and the bytes of the stream.", "quantifier": "every set of keywords, every stream, every division of it into buffers", "why_tests_cant": "the preference is implemented by the order of threads, which must be kept by every instruction at every byte", "anchors": ["src/lib/vm.cpp: _doSearch, _executeEpsilon, _executeFrame", "src/lib/compiler.cpp: encodeState, createJumpTable"]}
{"id": "C54", "title": "From patterns to hits", "statement": "Patterns are added to a new FSM under distinct indices, a program is created, and a stream is searched in any consecutive buffers and closed out. Then for every pattern that was not refused the hits reported under its index are exactly its leftmost non-overlapping matches: each hit's bytes match the pattern, no match of it starts between the previous hit's end and the hit's start, and none starts after the last hit's end. Adding, creating and searching end.", "quantifier": "all lists of patterns (given by their parse trees), all streams, all ways to cut them into buffers", "why_tests_cant": "The pipeline builds, prunes, merges, labels, lays out and runs the automaton; an error in any stage shows only for particular combinations of patterns and data.", "anchors": ["src/lib/fsmthingy.cpp:FSMThingy::addPattern", "src/lib/nfabuilder.cpp:NFABuilder::build", "src/lib/nfaoptimizer.cpp:NFAOptimizer", "src/lib/compiler.cpp:createProgram", "src/lib/vm.cpp:Vm::search"]}
{"id": "C55", "title": "Adding a pattern keeps which match it prefers", "statement": "When a pattern is added to an FSM, the match it prefers among those starting at one offset stays the one it prefers on its own, as given by its own automaton.", "quantifier": "all patterns, all FSMs they are added to, all streams", "why_tests_cant": "Merging shares states of the new automaton with itself and with those already there; whether the order of branches survives depends on which states are shared.", "anchors": ["src/lib/nfaoptimizer.cpp:NFAOptimizer::mergeIntoFSM", "src/lib/fsmthingy.cpp:FSMThingy::addPattern"]}
{"id": "C56", "title": "What was encoded before does not change a class", "statement": "The byte sequences an encoder gives for a character class accept exactly the encodings of its members, whatever classes it has been asked for before and in whatever order, and also for the class of all characters, whose sequences are prepared in advance.", "quantifier": "every history of classes, every Unicode encoding", "why_tests_cant": "The cache is keyed by sets and filled in the order of the patterns; all histories would have to be tried.", "anchors": ["include/encoders/caching_encoder.h: CachingEncoder::write", "include/encoders/utf8.h: CachingUTF8", "include/encoders/utf16.h", "include/encoders/utf32.h"]}
{"id": "C57", "title": "The text of a hit in context is faithful", "statement": "lg_hit_context returns a null-terminated UTF-8 string with no other null byte in it, in which every entry of the decoded window appears as itself, or as the replacement character if it is an error or a null; the reported byte range is exactly the text of the hit's entries, and the reported data range runs from the first to the end entry of the window.", "quantifier": "every buffer, hit, context size, valid replacement character and encoding that lightgrep decodes itself", "why_tests_cant": "all buffers including malformed text at every place", "anchors": ["src/lib/lightgrep_c_util.cpp: hitContext, cp_range_to_utf8", "include/decoders/utf8.h: cp_to_utf8"]}
{"id": "C58", "title": "Every pattern has the meaning the grammar gives it", "statement": "A sequence of tokens is accepted as a pattern exactly if the grammar of patterns (alternation, concatenation, greedy and non-greedy repetition, groups, lookarounds, option switches, character classes with ranges and set operators) derives it, and the pattern then has the tree of that derivation; option switches hold from where they stand to the end of their group.", "quantifier": "every sequence of tokens and every setting of the options", "why_tests_cant": "Patterns nest without bound and the grammar has conflicts that the parser generator resolves; every text would have to be tried.", "anchors": ["src/lib/re_grammar.ypp: regexp, alt, concat, switches, rep, atom, charclass, cc_expr_pos, cc_expr_neg", "src/lib/re_grammar.ypp: parse"]}
{"id": "C59", "title": "Errors point into the pattern", "statement": "When a pattern is refused with a message that quotes a part of the pattern, that part is a non-empty range inside the pattern.", "quantifier": "every pattern text, valid or not", "why_tests_cant": "The quoted range is computed from token positions in every error action; a wrong one reads outside the text.", "anchors": ["src/lib/re_grammar.ypp: yyerror, throwError", "src/lib/lightgrep_c_api.cpp: lg_parse_pattern"]}
{"id": "C60", "title": "A fixed string means itself", "statement": "A pattern parsed as a fixed string is accepted if it is not empty and consists of characters other than null, whatever characters these are, and stands for exactly the encoding of its text; case-insensitively, for the encodings of the texts that differ from it only in the case of letters.", "quantifier": "every text, every encoding; ignoring case, every encoding that has the Latin letters", "why_tests_cant": "Every text must be taken literally.", "anchors": ["src/lib/re_grammar.ypp: yylex, atom", "include/lightgrep/api.h: LG_KeyOptions.FixedString"]}
{"id": "C61", "title": "Quoting makes any text literal", "statement": "Putting a backslash before each of the characters | ( ) ? + * . [ ] ^ $ - { } & ~ < = ! \\ of a text gives a pattern that is parsed into the same tree as the text is as a fixed string.", "quantifier": "every text without null characters, every setting of the options", "why_tests_cant": "All texts, in particular all combinations of adjacent characters.", "anchors": ["src/lib/re_grammar.ypp: consumeEscape, yylex"]}
{"id": "C62", "title": "Text without special characters means itself", "statement": "A pattern that has none of the characters \\ ^ $ . | ? * + ( ) [ { stands for the same byte strings as the fixed string with the same text, although letters, digits, commas, hyphens, ampersands and tildes have meanings elsewhere.", "quantifier": "every text without these characters", "why_tests_cant": "All texts.", "anchors": ["src/lib/re_grammar.ypp: yylex, atom, character"]}
{"id": "C63", "title": "Shortcuts in the rewriter are sound", "statement": "Before it rewrites a parsed pattern the library looks at the pattern's text to see whether a non-greedy or a counted repetition is possible, and skips the rewriting passes for these if not. For every pattern that parses, skipping them gives exactly the tree that running all passes gives.", "quantifier": "every pattern text shorter than 2^64 bytes that parses, every setting of the options", "why_tests_cant": "The check looks at single characters and positions (a ? from the third byte on, a { not among the last two bytes and not first); every way to write a repetition must show them.", "anchors": ["src/lib/parser.cpp: containsPossibleNongreedy, containsPossibleCountedRepetition, parseAndReduce", "src/lib/rewriter.cpp"]}
{"id": "C64", "title": "The room for parse nodes suffices", "statement": "The parser keeps pointers into a vector of nodes for which it reserves room by looking at the text; the vector must never be reallocated. For every pattern that parses, the number of nodes, including the root, is at most the room reserved.", "quantifier": "every pattern text shorter than 2^28 bytes that parses", "why_tests_cant": "A text that needs one node more than reserved leaves dangling pointers; all texts must be counted.", "anchors": ["src/lib/parsetree.cpp: nodesUpperBound, ParseTree::init", "src/lib/re_grammar.ypp"]}
{"id": "C65", "title": "An encoding chain means the composition of its parts", "statement": "The encoder obtained for a chain such as identity|UTF-16LE|OCE encodes each character as the named character set does and then applies the named byte transforms in order; upper and lower case and empty parts make no difference; a chain is refused exactly if it does not name these; and what was requested before, and what the encoders have cached, makes no difference.", "quantifier": "every chain, every history of earlier requests and encoded classes, every table of encodings and all converters ICU may have", "why_tests_cant": "Histories and chains are unbounded; caching makes each reply depend on state.", "anchors": ["src/lib/chain.cpp: parse_chain", "src/lib/encoderfactory.cpp: EncoderFactory::get", "src/enc/encodings.cpp"]}
{"id": "C66", "title": "A chain decodes what it encodes", "statement": "Text encoded with the encoder for a chain and placed anywhere in a buffer is decoded, by the decoder for the same chain, to the same characters at the right offsets.", "quantifier": "every chain, every text of characters the encoding has, every surrounding buffer; with ICU, for all converters that read back what they write", "why_tests_cant": "All texts and chains.", "anchors": ["src/lib/encoderfactory.cpp", "src/lib/decoders/decoderfactory.cpp"]}
{"id": "C67", "title": "Every hit matches the text of the pattern whose number it carries", "statement": "Accepted patterns are numbered from 0 in the order in which they were added; refused ones use up no number. Every hit reported carries the number of an accepted pattern, and the bytes of the hit match that pattern's text, read by the grammar, with its options, in its encoding. No character that the encoding lacks contributes to a match.", "quantifier": "every list of requests with any options and chains, every determinization depth, every history of search calls with consecutive buffers", "why_tests_cant": "It speaks of all patterns, all combinations of them and all data, through parsing, rewriting, encoding, building, merging, determinization, compilation and search.", "anchors": ["src/lib/lightgrep_c_api.cpp: lg_parse_pattern, lg_add_pattern, lg_create_program, lg_search", "src/lib/fsmthingy.cpp", "src/lib/parser.cpp", "src/lib/vm.cpp"]}
{"id": "C68", "title": "The hits of a pattern are the leftmost non-overlapping matches of its text", "statement": "For every accepted pattern, the hits with its number are, in order, leftmost non-overlapping matches of its text in its encoding: each starts at the first place at or behind the end of the one before at which the text matches, and there is none behind the last.", "quantifier": "every list of requests, every data stream cut into any buffers", "why_tests_cant": "All patterns, all data; absence of a hit must be justified at every position.", "anchors": ["src/lib/lightgrep_c_api.cpp: lg_parse_pattern, lg_add_pattern, lg_create_program, lg_search, lg_closeout_search", "src/lib/rewriter.cpp", "src/lib/vm.cpp"]}
{"id": "C69", "title": "A character class matches the set its text describes", "statement": "A bracket expression is accepted exactly when it is well formed and no bracket in it is empty, and it then stands for the set of characters and bytes obtained from its items by the usual set operations: ranges, named classes, union by juxtaposition, &&, -- and ~~ from left to right, both cases of letters when case is ignored, and complement for [^...], with case closed before complementing.", "quantifier": "every token sequence, all options, every table of named classes and case folding", "why_tests_cant": "Nested classes with operators are unbounded in depth and number; a wrong order of closing and complementing shows only for some sets.", "anchors": ["src/lib/re_grammar.ypp: charclass, cc_expr_neg, cc_expr_pos, cc_atom", "include/parsenode.h: CharacterClassInternals"]}
{"id": "C70", "title": "A pattern means what its text says", "statement": "The text of a pattern without lookarounds is accepted by the parser exactly when it can be read as alternatives, sequences, repetitions, groups, switches, characters, bytes and classes; the reading is unique in effect; the byte strings the parsed pattern stands for are those of the reading (union, concatenation, powers within the bounds, both cases where case is ignored, switches lasting to the end of their group); and every hit reported for a pattern is such a byte string.", "quantifier": "every pattern text, all options, every encoding; for hits every list of requests and every stream of buffers", "why_tests_cant": "Patterns are unbounded; the meaning must hold for all of them and for all data.", "anchors": ["src/lib/re_grammar.ypp", "src/lib/lightgrep_c_api.cpp: lg_parse_pattern, lg_add_pattern"]}
{"id": "C71", "title": "The text of a pattern is split into tokens as documented", "statement": "The text of a pattern is read as a sequence of tokens in exactly one way, if any: characters with a meaning of their own, doubled operators, hyphens by what follows them, digits, escapes (each with the character, byte, class, property or assertion it stands for) and all other characters as themselves; a text that cannot be read so, or that has a null character or a byte that is not UTF-8, is refused. In a fixed string every character stands for itself. Bounds of repetitions are decimal numbers below 2^31.", "quantifier": "every text, every table of character names and properties", "why_tests_cant": "Texts are unbounded, and every escape may occur before and after everything else.", "anchors": ["src/lib/re_grammar.ypp: yylex, consumeEscape, consumeSingleton, number", "include/parseutil.h: parseHexCodePoint, parseHexByte, parseOctByte, parseNamedCodePoint, parseProperty"]}
{"id": "C72", "title": "An error message about a pattern names a fault that is there, at its place", "statement": "When a pattern that is not empty is refused with a message and a range, the pattern has that fault in that range: a bad escape; a range of characters or bytes, or the bounds of a repetition, in the wrong order; a parenthesis or bracket with no closing one; an operator of classes without an operand; a class with nothing in it; or else a token that cannot be where it is. Unless the message is about something not closed, no pattern that has the same tokens up to the end of the range (for a missing operand, up to the token after it) is accepted, whatever follows.", "quantifier": "every pattern text, all options, and every continuation of the refused beginning", "why_tests_cant": "There are unboundedly many malformed patterns, and that no continuation is accepted speaks of all of them.", "anchors": ["src/lib/re_grammar.ypp: yyerror, error productions", "src/lib/lightgrep_c_api.cpp: lg_parse_pattern, LG_Error"]}
{"id": "C73", "title": "Among the matches that begin at the same place, the automaton prefers the one a backtracking matcher finds first", "statement": "Take a pattern in which no string of a single character or class begins another one, in which what is repeated greedily without bound tries to match nothing only last, and in which going on is tried before ending wherever a match can end. Then the automaton built for it, before and after pruning, prefers in every stream exactly the matches a backtracking matcher reports: the leftmost one, of those that begin there the one found first when alternatives are tried from left to right, greedy repetitions from more to fewer rounds and non-greedy ones from fewer to more, and then on from its end. Without the second or the third condition this is false.", "quantifier": "every parse tree with these properties, every stream, every offset to start from", "why_tests_cant": "Priorities are encoded in the order of edges and in the place of the exit among them; whether they compose right depends on arbitrary nesting of alternations and greedy and non-greedy repetitions.", "anchors": ["src/lib/nfabuilder.cpp: alternate, concatenate, question, star, plus, repetition, patch_mid", "include/fragment.h: Fragment, OutListT, Skippable", "src/lib/nfaoptimizer.cpp: pruneBranches"]}
{"id": "C74", "title": "The hits of a keyword are those a backtracking matcher finds, whatever the other keywords are", "statement": "Patterns are added to a program together, it is finalized, determinizing to any depth, and a stream is searched in any pieces and closed out. Take one of the patterns that is as in C73 and in whose automaton the states that merging may take for the same do not share a successor and are not reached from a cycle. The hits reported for it are exactly those a backtracking matcher for that pattern alone reports in the whole stream, so they depend neither on the other patterns nor on the pieces nor on the depth. The hits of the patterns already there are never changed by adding one.", "quantifier": "every list of patterns with different labels, every determinization depth, every stream and every way to cut it into pieces", "why_tests_cant": "The preference for a match passes through five automata, shared with arbitrary other patterns; a reordering shows only for particular combinations of patterns and streams.", "anchors": ["include/lightgrep/api.h: lg_add_pattern, lg_create_program, lg_search, lg_closeout_search", "src/lib/fsmthingy.cpp: FSMThingy::addPattern, finalizeGraph", "src/lib/nfaoptimizer.cpp: mergeIntoFSM, subsetDFA, labelGuardStates", "src/lib/vm.cpp: Vm::search"]}
{"id": "C75", "title": "Sample matches match", "statement": "The samples command prints, for a set of keywords, strings each of which is matched by one of the keywords, whatever random numbers are drawn and whatever the limits on samples and on repetitions are. It ends, without touching memory that is not there, and prints at least one string if any was asked for and any keyword can match.", "quantifier": "every set of keywords, every sequence of random numbers, every sample and loop limit", "why_tests_cant": "Which path is walked depends on the random numbers; the walks that must turn back need a loop entered at a second place, which few keywords have.", "anchors": ["src/lib/matchgen.cpp: matchgen, chooseByte, addRange", "src/cmd/main.cpp: writeSampleMatches"]}
{"id": "C76", "title": "Keywords on the command line are searched for as given", "statement": "Every keyword given with -p is added to the program, in the order given, once for every encoding given with -e, as a fixed string and ignoring case just as -F and -i say; one error is reported for each keyword that does not parse and each that is refused, and nothing else is added. Without -p, the keyword files are read in the order given.", "quantifier": "every list of keywords, every list of encodings, every setting of the options, every list of keyword files", "why_tests_cant": "Keywords pass through the text of a keyword list, in which some characters have a meaning; which keywords survive is a statement about all strings.", "anchors": ["src/cmd/options.cpp: Options::getPatternLines", "src/cmd/lg_app.cpp: parsePatterns", "src/lib/lightgrep_c_api.cpp: lg_add_pattern_list"]}
{"id": "C77", "title": "lg_search_resolve finishes what was begun and begins nothing new", "statement": "Data is given to a new context in consecutive buffers, the first of them to lg_search and the others to lg_search_resolve, and the context is closed out. Then for every keyword the hits reported are, in order, exactly those hits that giving all the buffers to lg_search and closing out would report and that start in the buffers given to lg_search; although lg_search_resolve stops looking at the data as soon as no match is being followed any more.", "quantifier": "every compiled program, every stream, every way to cut it into buffers, every place where resolving takes over, every keyword", "why_tests_cant": "Which partial matches are alive at the end of the searched part, and what the threads left out would have done to them, depends on the program and on all the data.", "anchors": ["src/lib/vm.cpp:Vm::searchResolve", "src/lib/vm.cpp:Vm::closeOut", "include/lightgrep/api.h:lg_search_resolve"]}
{"id": "C78", "title": "The hits for a text are those a backtracking matcher for the text finds", "statement": "Patterns are given as texts, each with options and an encoding, and added to one FSM; some may be refused. A program is made, determinizing to any depth, and a stream is searched in any pieces and closed out. For every accepted pattern without lazy repetitions inside repetitions, without repetitions of the same thing side by side, without a branch that is only {0} before a bar and without classes that name single bytes, whose rewritten form and automaton are as in C73 and C74, the hits reported are exactly those a backtracking matcher for the text, reading characters in that encoding, reports in the whole stream: left to right, at each place the match found first in the order of choices the text prescribes (left side of | first, greedy repetitions longest first, lazy ones shortest first), going on after its end.", "quantifier": "every list of texts, options and encodings, every determinization depth, every stream and every way to cut it into pieces", "why_tests_cant": "It joins the parser, six rewriting passes, the encoders, four automata and the machine; which of several matches at a place is reported shows an error only for particular combinations of text, encoding, other patterns and data.", "anchors": ["include/lightgrep/api.h: lg_parse_pattern, lg_add_pattern, lg_create_program, lg_search, lg_closeout_search", "src/lib/rewriter.cpp", "src/lib/encoderfactory.cpp: EncoderFactory::get", "src/lib/fsmthingy.cpp: FSMThingy::addPattern", "src/lib/vm.cpp: Vm::search"]}
{"id": "C79", "title": "The text shown and counted for a hit is the characters its bytes spell", "statement": "When a hit is printed with context or counted in the histogram, its text is the characters that its bytes in the file spell in the encoding of its keyword, in UTF-8, wherever in the file the hit lies and however the file is cut into blocks. When the lines around it spell characters too, they are shown as these characters, the hit is marked exactly, and the printed offset is that of the first byte shown. The histogram of a file counts, for each text and pattern, the hits of the search with that text.", "quantifier": "every file, block size, hit, encoding chain, decoder state and number of context lines", "why_tests_cant": "Hits can cross any block boundary, begin or end anywhere relative to the current block and be reported only when the search is closed out; the decoder keeps its state between calls.", "anchors": ["src/cmd/hitwriter.cpp: HitOutputData::decodeContext, HistogramInfo::writeHitToHistogram", "src/cmd/searchcontroller.cpp: SearchController::searchFile", "src/cmd/reader.cpp", "src/lib/lightgrep_c_util.cpp: lg_hit_context, decode"]}
{"id": "C80", "title": "Each input is searched as if it were the only one", "statement": "The search command searches its inputs in order: those of the lists, then those named; a directory is skipped, or with --recursive every file in it is searched once. What it prints is, for each input in turn, the hits that a search of that file's content alone finds, with that input's path and the pattern of the hit, one line each, the separator between lines exactly when context is printed. Neither earlier inputs nor the way a file is cut into blocks or mapped change a hit. The number of hits counts them all. For programs the compiler makes, the command ends. An input that cannot be opened ends it, after the inputs before it are done.", "quantifier": "every program, every list of inputs and input lists, every content of files and directory trees, every block size and order in which reads and searches overlap", "why_tests_cant": "There is no end of sequences of inputs; state left by one file (search context, decoder, cached text, path) could show only in combination with particular contents of the next.", "anchors": ["src/cmd/main.cpp: search, searchRecursively, searchInputs, searchRec, searchNonRec, selectCallbackFn", "src/cmd/hitwriter.cpp: callbackFn", "include/hitwriter.h: HitOutputData", "src/cmd/searchcontroller.cpp: SearchController::searchFile", "src/cmd/reader.cpp"]}
{"id": "C81", "title": "Standard input is read at most once", "statement": "However often - occurs among the inputs, in the lists of inputs and as the name of a list, standard input is read at most once, at the first of them; later ones are skipped. If it is named as an input, not used for a list, and nothing before it fails, it is searched.", "quantifier": "every list of inputs and input lists and every content of the lists", "why_tests_cant": "The occurrences can be in any of the places, in lists of any length.", "anchors": ["src/cmd/main.cpp: skipStdin, searchInputs, search"]}
{"id": "C82", "title": "Options of the search command mean what they say, and clashing ones are refused", "statement": "The options of a search are refused exactly if they clash: --program-file with keywords, --pattern with --keywords, no keywords at all, a negative number of context lines, -H with -h, mapping (or context, which implies it) with standard input as a named input. Otherwise keywords come from the options or the first positional argument, -C N is -B N -A N, context implies mapping, the inputs are the remaining positional arguments, or standard input if there are none and no list, and each hit is printed with its path, its context, both, neither, or not at all as asked.", "quantifier": "every combination of options, numbers and arguments", "why_tests_cant": "The combinations multiply; the numbers and arguments are unbounded.", "anchors": ["src/cmd/options.cpp: Options::validateAndPopulateOptions, validateAndPopulateKeyFiles, populateContextOptions, validateAndPopulateSearchOptions", "src/cmd/main.cpp: selectCallbackFn", "src/cmd/optparser.cpp: parse_opts"]}
{"id": "C83", "title": "A search or hit context asked for from Java gets exactly the bytes asked for", "statement": "ContextHandle.search and startsWith, given a byte array with offset and size, or a ByteBuffer with size, search exactly the size bytes from that offset, or from the buffer's position, at the stream offset given; LGUtil.getHitContext decodes exactly those bytes. If the arguments do not describe bytes that are there, or an argument is null or negative, the handle is destroyed, or the hit is not inside the bytes, an exception is thrown. Memory outside the array or buffer is never read.", "quantifier": "every array, every state of a direct, heap or read-only ByteBuffer, and every value of the int and long arguments", "why_tests_cant": "The arguments range over all 32 and 64 bit numbers, where differences wrap; the buffers have positions, limits and array offsets in every combination.", "anchors": ["src/java/src/main/java/com/lightboxtechnologies/lightgrep/ContextHandle.java: search, startsWith", "src/java/src/main/java/com/lightboxtechnologies/lightgrep/LGUtil.java: getHitContext", "src/java/src/main/java/com/lightboxtechnologies/lightgrep/Throws.java", "src/java/jni/jlightgrep.cpp: search, startsWith, getHitContext"]}
{"id": "C84", "title": "A destroyed Java handle is harmless", "statement": "In every history of calls on Java handles, a call on a destroyed handle throws, destroying or closing again does nothing, no object of the library is used after it is freed or freed twice, and when every handle is closed no object is left.", "quantifier": "every sequence of creating, using, compiling and destroying handles, in any order, with every outcome of creation", "why_tests_cant": "Histories are unbounded and handles share objects.", "anchors": ["src/java/src/main/java/com/lightboxtechnologies/lightgrep/Handle.java", "src/java/src/main/java/com/lightboxtechnologies/lightgrep/ProgramHandle.java", "src/java/jni/jlightgrep.cpp: destroyHandle, create, compileImpl, createContextImpl"]}
{"id": "C85", "title": "A program written to a Java array can be read back, and nothing else is overwritten", "statement": "ProgramHandle.write at an offset of an array that has room for the program's size changes exactly those bytes to the serialized program, and throws otherwise; ProgramHandle.read of them gives the program back.", "quantifier": "every program, array and offset", "why_tests_cant": "Programs can be of any size, and offsets and sizes are ints that wrap.", "anchors": ["src/java/src/main/java/com/lightboxtechnologies/lightgrep/ProgramHandle.java: write, read, size", "src/java/jni/jlightgrep.cpp: sizeImpl, writeImpl, readImpl, makeProgramHandle"]}
{"id": "C86", "title": "Numbers cross between Java and the library unchanged", "statement": "The user index given when a pattern is added is the one read from its PatternInfo; the start, end and keyword index of a hit arrive in the callback as the library reported them; search returns the offset the library returned.", "quantifier": "every int user index, every offset and keyword index below the limits of Java's types", "why_tests_cant": "Conversions between int, long, uint32_t and uint64_t have to be right for all values.", "anchors": ["src/java/jni/jlightgrep.cpp: addPatternImpl, makePatternInfo, setUserIndexImpl, callbackShim, search"]}
{"id": "C87", "title": "Text crosses between Java and the library unchanged", "statement": "A pattern given as a Java string is parsed as the characters of the string, and the text of a hit context or pattern info arrives in Java as the characters it has, with the hit's position being its position in the string.", "quantifier": "every Java string, every options, every text and every hit", "why_tests_cant": "There are unboundedly many strings, and the two sides encode some characters differently.", "anchors": ["src/java/jni/jlightgrep.cpp: unwrap, parsePatternImpl, makePatternInfo, makeHitContext", "include/unicode.h: utf8_to_unicode"]}
{"id": "C88", "title": "Determinize in Java means determinize", "statement": "A program compiled from Java searches for its patterns, whether ProgramOptions.Determinize is set or not.", "quantifier": "every set of patterns and both values of the option", "why_tests_cant": "It has to hold for every automaton; for most nothing goes wrong.", "anchors": ["src/java/jni/jlightgrep.cpp: compileImpl", "include/lightgrep/api.h: LG_ProgramOptions"]}
{"id": "C89", "title": "Only well-formed UTF-8 is accepted as a pattern", "statement": "If lg_parse_pattern accepts a text, as a fixed string or as a regular expression, the text is well-formed UTF-8, and what was parsed are the characters it spells. No malformed byte sequence is skipped, replaced or taken for a character.", "quantifier": "every byte string, both kinds of pattern and all options", "why_tests_cant": "Malformed sequences can stand anywhere: inside names, classes, counts and escapes.", "anchors": ["include/unicode.h: utf8_to_unicode", "src/lib/re_grammar.ypp: parse, yylex, consumeEscape", "include/parseutil.h: unicode_to_ascii, prepareStringForICU"]}
{"id": "C90", "title": "Python: each buffer is searched as if it were alone, and the counts agree with the hits", "statement": "In every sequence of searchBuffer and searchBufferStartswith calls on a new Context, each buffer is searched as if no other had been: the hits for it are those of a search of that buffer by itself, they are appended to the accumulator in order, and the call returns how many hits the accumulator has by then. After every history of Context and HitAccumulator methods, KeyCounts[p] is the number of entries of Hits with the pattern p.", "quantifier": "every program, every sequence of buffers and method calls, every accumulator", "why_tests_cant": "Matches can be left over from any earlier buffer; the counts have to agree after every history, with resets and repeated patterns.", "anchors": ["pylightgrep/lightgrep/__init__.py: Context, HitAccumulator, _the_callback_impl"]}
{"id": "C91", "title": "Python: every hit names the entry of the pattern list it matches", "statement": "If make_program_from_patterns accepts a list of (text, encodings, options), every hit recorded in a search of a stream has as keywordIndex the place of an entry of the list, as pattern that entry's text and as encChain one of its encodings, and the bytes of the hit match the text with the entry's options in that encoding. No hit goes unrecorded.", "quantifier": "every list of patterns, every program made of it, every stream and every way of dividing it", "why_tests_cant": "The entry is found through the pattern number, the pattern map and the user index; the lists, encodings and streams are unbounded.", "anchors": ["pylightgrep/lightgrep/__init__.py: Fsm.add_patterns, Fsm.add_pattern, Pattern.parse, make_program_from_patterns, HitAccumulator.lgCallback", "src/lib/lightgrep_c_api.cpp: lg_add_pattern, lg_prog_pattern_info"]}
{"id": "C92", "title": "Python handles are safe in every order of calls", "statement": "Whatever a Python program does with its handles, in whatever order, the library never uses or frees an object that is not there; every object belongs to exactly one handle. A call that uses a closed handle raises an exception, also a search with a context whose program has been closed. Closing twice is as closing once. A buffer of bytes is searched whole.", "quantifier": "every history of constructor, method and close calls", "why_tests_cant": "There are unboundedly many orders of calls, and a mistake shows only as corrupted memory.", "anchors": ["pylightgrep/lightgrep/__init__.py: Handle, Pattern, Fsm, Program, Context, HitDecoder, buf_range"]}
{"id": "C93", "title": "Python: the hit context is the text of the characters shown", "statement": "hit_context always decodes, and is exactly the string of the characters that lg_hit_context shows for the hit and its surroundings, for all characters of Unicode. context_hit_begin and context_hit_end are the positions of the hit in that string exactly if the characters before them are ASCII, and too large otherwise.", "quantifier": "every charset, every chain of transformations, all data, every hit window and size", "why_tests_cant": "Data and decoders are unbounded; characters of all lengths, nulls and bad bytes can stand anywhere.", "anchors": ["pylightgrep/lightgrep/__init__.py: HitDecoder.full_hit_context, HitDecoder.hit_context", "src/lib/c_api_util.cpp: lg_hit_context"]}
{"id": "C94", "title": "Decoders of ICU's encodings deliver what the converter reads, at the right offsets", "statement": "For an encoding converted by ICU, decoding a range of a buffer delivers, in order, the characters the converter finds in the range with the byte transforms undone, each with the offset of its first byte; a byte at which the converter finds no character is delivered alone as an error value; at the end of the range END is delivered forever. Nothing is lost or repeated, whatever was decoded before, and text that the converter wrote is read back.", "quantifier": "every converter that reads at least one byte for a character and not more than there are, every chain of byte transforms, every buffer and range in it, every earlier use of the decoder", "why_tests_cant": "The decoder buffers what the source delivers and decodes from the buffer; converters, data and earlier states are unbounded.", "anchors": ["include/decoders/icudecoder.h: ICUDecoder::next, ICUDecoder::reset", "src/lib/icuconverter.cpp: ICUConverter::bytes_to_cp", "src/lib/decoders/decoderfactory.cpp: DecoderFactory::get"]}
{"id": "C95", "title": "The generated table of encodings names each alias's first encoding", "statement": "In a build with ICU the generated table lists every alias of every encoding that is not left out exactly once, in the order of bytes, with the number of the first such encoding in ICU's order that has the alias; every number is that of a canonical name. A name given by the user is looked up without regard to case: the alias that comes first in the order of bytes counts.", "quantifier": "every list of encodings and aliases and every assignment of standard names ICU may have, every name", "why_tests_cant": "The table depends on the ICU the library is built with; lists and aliases are unbounded.", "anchors": ["src/enc/encodings.cpp: main", "src/lib/lightgrep_c_util.cpp: find_trans_id, lg_get_encoding_id", "include/lightgrep/encodings.h.no_icu"]}
{"id": "C96", "title": "The search command prints the leftmost matches of the keywords it is given", "statement": "Keywords given with -p, or else the lines of the keyword files given with -k, in the encodings given with -e or in the lines, make a program, and the inputs are searched with it. Then the command prints, for every input in order, a line per hit; every hit is a match, at its place in the input, of one of the keywords in one of the encodings, as the grammar reads the keyword with the options -F and -i, and is shown with that keyword, that encoding and the number of the keyword or of its line; and for every accepted keyword in an encoding the hits shown are its leftmost non-overlapping matches in the input. (For keywords without a branch that is only {0} before a bar and without non-greedy repetitions in repetitions, unless some string could be repeated before a match of every accepted keyword.)", "quantifier": "every list of keywords and encodings, all keyword files, all options, every set of files and standard input, every block size, every determinization depth that is not used up", "why_tests_cant": "It composes the options, the parser, the rewriter, the encoders, the automaton, the compiler, the search and the output; keywords and data are unbounded.", "anchors": ["src/cmd/options.cpp: getPatternLines", "src/cmd/lg_app.cpp: parsePatterns", "src/cmd/main.cpp: search", "src/lib/lightgrep_c_api.cpp: lg_add_pattern_list, lg_create_program"]}
{"id": "C97", "title": "Which patterns are refused", "statement": "Patterns are added one by one. Each is either refused or gets the next number, from 0. A pattern is accepted if and only if its text can be read, it has no lookaround, the chain of encodings names a known encoding, the encoding has a byte sequence for every character of the pattern and for some member of each of its classes, and the pattern does not match the empty string. (For patterns without non-greedy repetitions and without {0}; of others the program drops parts without looking at their characters.)", "quantifier": "every list of patterns of any length, all options, every chain of encodings, whatever ICU's tables and converters are", "why_tests_cant": "A wrongly refused or wrongly accepted pattern is one of unboundedly many texts, and acceptance depends on the text, the rewriter, the encoder and the automaton together.", "anchors": ["src/lib/lightgrep_c_api.cpp: lg_add_pattern", "src/lib/parser.cpp: parseAndReduce", "src/lib/nfabuilder.cpp: NFABuilder::build", "src/lib/encoderfactory.cpp: EncoderFactory::get"]}
{"id": "C98", "title": "Parsing a pattern is always defined", "statement": "Parsing a pattern ends for every text, under all options, with a parsed pattern or an error with its message: no character class, escape, group, switch, repetition or combination of them, well-formed or not, makes the parser read or write out of bounds, overflow or run on.", "quantifier": "every byte string of any length, all options, whatever ICU's tables are", "why_tests_cant": "A crash of the parser can hide in one of unboundedly many texts, in particular ones that nobody would write on purpose; fuzzing samples them.", "anchors": ["src/lib/lightgrep_c_api.cpp: lg_parse_pattern", "src/lib/re_grammar.ypp: atom, charclass, repetition, number", "src/lib/parser.cpp: parseAndReduce", "include/rangeset.h: RangeSet"]}
{"id": "C99", "title": "The histogram file tells how often each text was found", "statement": "After a search command with a histogram file has run over all its inputs, the file has one line for each text, keyword and keyword number that some hit has. A line has four columns separated by tabs: the number of hits, the text, the number of the keyword and the keyword; no column contains a tab or a line break. Lines are in order of falling counts, then rising keyword numbers, then rising texts. The counts add up to the number of hits, and from the file one can tell how often each text was found. The same hits give the same file.", "quantifier": "every program, set of inputs, block size, text of hits, and every order in which a hash table and std::sort may give the entries", "why_tests_cant": "The order depends on a hash table and an unstable sort, and texts and keywords can contain every character, including those used as separators.", "anchors": ["src/cmd/hitwriter.cpp: writeHistogram, escapeControlChars, histogramKeyComp", "src/cmd/main.cpp: search", "include/hitwriter.h: HistogramKey"]}
{"id": "C100", "title": "A program written and read back searches like the original", "statement": "A program is written to a buffer or, by the command with --binary, to a file; later it is read back, from the buffer with lg_read_program or from the file with --program-file. From then on the handle has the same patterns, under the same numbers, and the same instructions, filter and counters as the original, so that every search with it reports the same hits; whatever else is created, written, read, freed or destroyed in between, including the original, as long as the caller keeps the buffer as api.h asks.", "quantifier": "every compiled program, pattern list, address, and every history of operations on blocks of memory and on other handles", "why_tests_cant": "A test that reads a program and uses it at once cannot see that the handle points into memory that the caller may give back; freed memory often still holds the old bytes.", "anchors": ["src/lib/lightgrep_c_api.cpp: read_program, write_program", "src/lib/program.cpp: Program::unmarshall", "src/lib/pattern_map.cpp: PatternMap::unmarshall", "src/cmd/main.cpp: loadProgram", "src/cmd/lg_app.cpp: writeProgram", "include/lightgrep/api.h: lg_read_program"]}
{"id": "C101", "title": "The list of encodings says which names can be used", "statement": "The command's list of encodings has one entry for each encoding of the build, in the order of the table, with its canonical name and, below it, every other name that stands for it, each once and in the order of bytes. The list can be read in one way only, and a name listed below an encoding, in any case of letters, selects that encoding when it is used in an encoding chain.", "quantifier": "every set of encodings and aliases that ICU may have, and the build without ICU", "why_tests_cant": "The tables are generated from whatever ICU is installed; a test sees one of them.", "anchors": ["src/cmd/main.cpp: printEncodings", "src/enc/encodings.cpp: main", "src/lib/lightgrep_c_util.cpp: lg_get_encoding_id"]}
{"id": "C102", "title": "Adding, compiling and searching always come to an end", "statement": "Patterns whose texts have a defined parse (C98) are added one after the other; each call comes to an end, whatever was added before and whether or not the pattern is accepted. If at least one was accepted, creating a program with any determinization depth comes to an end with an automaton, and, without parallel edges and with fewer than 2^24 states and patterns, with a program; then every history of searches, resolutions, close-outs, prefix searches and resets with a context for it comes to an end without leaving the program or its tables. If none was accepted, creating the program fails with the error for it.", "quantifier": "every list of patterns of any length, all options and encoding chains, every determinization depth, every history of calls with buffers of any length", "why_tests_cant": "Non-termination shows only for particular automata (a second lg_create_program on the same FSM does hang, C24), and a test cannot tell a loop that never ends from one that takes long.", "anchors": ["src/lib/lightgrep_c_api.cpp: lg_add_pattern, lg_create_program", "src/lib/fsmthingy.cpp: FSMThingy", "src/lib/nfaoptimizer.cpp: NFAOptimizer", "src/lib/utility.cpp: bestPair", "src/lib/vm.cpp: Vm"]}
{"id": "C103", "title": "Fixed strings are found exactly where they occur", "statement": "A pattern added as a fixed string, case-sensitively, is accepted exactly when it is valid UTF-8, not empty, without the null character, and the encoding chain is known and has all its characters. Whatever else is in the program and however the data is divided into buffers, the hits of the pattern are then the non-overlapping occurrences of its bytes in that encoding, from left to right: the first occurrence, then the first that begins at or after its end, and so on. Any list of such keywords can be added, compiled and searched, each keyword getting the next index.", "quantifier": "every fixed string of any length, every encoding chain, every set of other patterns in the program, every input and division into buffers", "why_tests_cant": "Other patterns in the program change the automaton, the jump tables and the filter; a test tries a few combinations and divisions.", "anchors": ["include/lightgrep/api.h: lg_parse_pattern, lg_add_pattern, lg_search", "src/lib/parser.cpp: parse", "src/lib/vm.cpp: Vm", "src/lib/fsmthingy.cpp: addPattern"]}
{"id": "C104", "title": "Fixed strings are found in any case of letters", "statement": "A fixed string that is added case-insensitively is accepted exactly when it is valid UTF-8, not empty, without the null character, the encoding chain is known and has, for each character, at least one that stands for it. Its hits are then the leftmost non-overlapping places where the bytes are those of a text whose characters stand for those of the keyword, in the encoding of the pattern, whatever else is in the program and however the data is divided; at one place there is at most one such text. In a build without ICU the letters A to Z stand for a to z and the reverse. With ICU, in Unicode mode, a character stands for all that ICU takes for the same letter; in ASCII mode the letters A to Z and a to z stand for each other only.", "quantifier": "every fixed string, encoding chain, set of other patterns, input and division into buffers; every notion that ICU may have of the same letter", "why_tests_cant": "There are exponentially many ways to write a keyword in mixed case, times encodings, times other patterns in the program.", "anchors": ["src/lib/parseutil.cpp: caseDesensitize", "src/lib/parser.cpp: parse", "src/lib/vm.cpp: Vm"]}
{"id": "C105", "title": "The command prints the occurrences of fixed strings", "statement": "A search with -F for any keywords that can be written in the encodings given makes a program, searches every input and comes to an end. It prints a line for each hit, and the hits in an input for a keyword in an encoding are the non-overlapping occurrences of its bytes from left to right, shown with that keyword, that encoding and the number of the keyword. Keywords that cannot be written in an encoding are refused and the others are found all the same. With -i the same holds of the texts that differ from the keyword in case only; and all of it holds of the lines of keyword files that ask for fixed strings.", "quantifier": "every list of keywords and encodings, every list of inputs, contents of files and block size", "why_tests_cant": "Keywords and encodings are compiled into one automaton; files are read in blocks, and a hit may lie across any block boundary.", "anchors": ["src/cmd/main.cpp: search", "src/cmd/options.cpp: getPatternLines", "src/cmd/lg_app.cpp: parsePatterns", "src/cmd/main.cpp: searchRecursively"]}
{"id": "C106", "title": "Every keyword that cannot be used is reported", "statement": "The commands write to standard error one line for each keyword file that cannot be opened and one line for each keyword, or keyword and encoding, that is refused, with its number, pattern, encoding and the reason, in the order of the files, lines and encodings. Nothing is written when all keywords are accepted. Each error object is freed exactly once.", "quantifier": "every list of keywords, keyword files and encodings, and any set of them refused", "why_tests_cant": "The errors of any number of files, lines and encodings are chained through pointers handed from call to call; an error can come at any place in the chain.", "anchors": ["src/lib/errors.cpp: Errors::extend, Errors::outputErrors", "src/lib/c_api_util.cpp: makeError", "src/lib/lightgrep_c_api.cpp: lg_add_pattern_list, lg_free_error", "src/cmd/main.cpp: validate, samples"]}
{"id": "C107", "title": "Of alternative strings, the first listed that occurs is reported", "statement": "A case-sensitive pattern that lists strings, such as fox|fa|foxes or foo(bar|baz), reports from left to right and without overlaps the places where one of the strings occurs in the requested encoding, and at each place the first listed of those that occur there, not the longest. Other patterns in the same program make no difference.", "quantifier": "every list of strings, every other pattern in the program, every encoding, determinization depth, stream and division into buffers", "why_tests_cant": "Alternatives of all patterns are merged into one automaton where a branch shared with another pattern could change their order; the strings and the data are unbounded.", "anchors": ["src/lib/nfaoptimizer.cpp: mergeIntoFSM, determinize", "src/lib/compiler.cpp: createProgram", "src/lib/vm.cpp: Vm::search", "src/lib/re_grammar.ypp: alt"]}
{"id": "C108", "title": "The pattern written from a parse tree matches what the pattern it was read from matches", "statement": "unparse turns a parsed pattern back into text. That text is accepted, and a search for it reports the same hits as a search for the original: no character, class, repetition bound, greediness or grouping is lost or changed.", "quantifier": "every pattern that is accepted, every encoding and every stream", "why_tests_cant": "Trees are of any depth, and a class is any of the 2^256 sets of small characters, which is written in the shorter of two forms with hyphens, carets and brackets moved to places where they stand for themselves.", "anchors": ["src/lib/unparser.cpp: unparse, byteSetToCharacterClass, byteToLiteralString", "src/lib/parsenode.cpp: repetition", "include/unparser.h: unparse"]}
{"id": "C109", "title": "The exit status says whether the command did its work", "statement": "search exits with 0 exactly if its options go together, a program is made of the keywords, the output and the histogram can be written and every input can be opened; graph and program exit with 0 exactly if their options go together, a program is made and the output can be written; validate exits with 0 exactly if every keyword is accepted, as README.md says; otherwise the status is 1. Unknown commands are refused with 1.", "quantifier": "every combination of options, keywords, keyword files, inputs and files that can or cannot be opened or written", "why_tests_cant": "The status depends on every option, keyword and file; combinations are unbounded.", "anchors": ["src/cmd/main.cpp: main, search, validate, writeGraphviz, outputProgram, writeSampleMatches", "src/cmd/optparser.cpp: parse_opts", "src/cmd/options.cpp: validateAndPopulateOptions, openOutput, populateSampleOptions"]}
{"id": "C110", "title": "From the command line to the printed lines", "statement": "lightgrep -F [-i] -p KEYWORD... -e ENCODING... FILE..., with the names of encodings in letters of any case and keywords that can be written in them, ends with status 0, or 1 if an input cannot be opened, and prints a line for each hit; the hits in an input for a keyword in an encoding are its non-overlapping occurrences from left to right (with -i, of the texts that differ from it in case only), shown with that keyword, the name of that encoding in capitals and the number of the keyword. (If the automaton fits into a program and the determinization depth.)", "quantifier": "every list of keywords, encodings in any spelling, options that go together, inputs and contents", "why_tests_cant": "It composes the options, the compiler, the search and the output for unbounded keywords and data.", "anchors": ["src/cmd/main.cpp: main, search", "src/cmd/optparser.cpp: parse_opts", "src/cmd/options.cpp: validateAndPopulateOptions, getPatternLines", "src/lib/encoderfactory.cpp: EncoderFactory::get"]}
{"id": "C111", "title": "From a keyword file to the printed lines", "statement": "lightgrep KEYWORDFILE FILE... or lightgrep -k KEYWORDFILE FILE..., where every line of the keyword file is for a fixed string that can be written in the encodings of the line, or of the command line if it names none, ends with status 0, or 1 if an input cannot be opened, and prints a line for each hit; the hits in an input for the string of a line in an encoding are its non-overlapping occurrences from left to right (if the line asks for it, of the texts that differ from it in case only), shown with that string, that encoding and the number of the line. (If the automaton fits into a program and the determinization depth.)", "quantifier": "every keyword file, options that go together, inputs and contents", "why_tests_cant": "It composes the reading of the file, the compiler, the search and the output for unbounded files and data.", "anchors": ["src/cmd/main.cpp: main, search", "src/cmd/lg_app.cpp: parsePatterns", "src/cmd/options.cpp: getPatternLines, validateAndPopulateOptions", "src/lib/lightgrep_c_api.cpp: addPatternList"]}
{"id": "C112", "title": "The automaton can be read from what graph writes", "statement": "What lightgrep -c graph writes when it ends with status 0 is the automaton that the keywords were compiled from. If it writes the same text for two lists of keywords, their automata have as many states, the same matching states and the same edges in the same order, the states take the same bytes, and so the same keywords are recognised in the same bytes.", "quantifier": "every two lists of keywords with their options, and every two automata", "why_tests_cant": "It is about all pairs of automata, and labels made of arbitrary bytes must not be mistaken for each other or for the syntax around them.", "anchors": ["src/lib/utility.cpp: writeGraphviz, writeVertex, writeEdge, escape", "src/lib/states.cpp: printByte, printRange, label", "src/lib/automata.cpp: Glushkov::label", "src/cmd/main.cpp: writeGraphviz"]}
{"id": "C113", "title": "A program written by the command and read through the API", "statement": "lightgrep -c program --binary -p KEYWORD... -e ENCODING... writes the program with which lightgrep -p KEYWORD... -e ENCODING... searches, and its patterns. With -F and keywords that can be written in the encodings it ends with status 0, and lg_read_program makes of the bytes written, wherever they are in memory, a program of which lg_program_size is their number, with a list of the keywords, the names of their encodings in capitals and the numbers of the keywords; every search with it ends, and the hits for a keyword in an encoding are its non-overlapping occurrences from left to right, however the data are divided into buffers; with -i as well, they are the leftmost non-overlapping places with a text that stands for the keyword. (If the automaton fits into a program and the determinization depth, and the bytes written are fewer than 2^31.)", "quantifier": "every list of keywords, encodings in any spelling, options that go together, data, buffers and addresses", "why_tests_cant": "It composes the options, the compiler, writing and reading of programs and the search for unbounded keywords and data.", "anchors": ["src/cmd/main.cpp: outputProgram, search", "src/cmd/lg_app.cpp: writeProgram", "src/lib/lightgrep_c_api.cpp: lg_write_program, lg_read_program, lg_program_size, lg_search"]}
{"id": "C114", "title": "The listing of a program", "statement": "lightgrep -c program -p KEYWORD... -e ENCODING... (without --binary) ends with status 0 for keywords that are acceptable in the encodings, without reading behind the end of the program, and writes the listing of the program made of the keywords. What it writes for two lists of keywords is the same exactly if the programs have the same instructions with the same operands: no two different instructions, operands or sequences of them are listed alike.", "quantifier": "every two lists of keywords, encodings in any spelling, options that go together, and every sequence of instructions with operands", "why_tests_cant": "It says that no two programs are listed alike, and that the listing follows the layout of every program the compiler can make.", "anchors": ["src/lib/program.cpp: operator<<, printIndex", "src/lib/instructions.cpp: Instruction::toString, HexCode, testNot", "src/cmd/lg_app.cpp: writeProgram", "src/lib/compiler.cpp: createProgram, encodeState, createJumpTable"]}
{"id": "C115", "title": "The program that the command writes for a keyword file", "statement": "lightgrep -c program --binary KEYWORDFILE (or -k KEYWORDFILE), where all lines of the file are for fixed strings that can be searched for in their encodings, ends with status 0. lg_read_program makes of the bytes it writes, wherever they are in memory, a program with a list of the keywords, their encodings and the numbers of their lines. Every search with that program ends, and the hits reported for a string in an encoding are its non-overlapping occurrences from the left, or, if its line asks for it to be found without regard to case, the leftmost non-overlapping places with a text that stands for it.", "quantifier": "every text of a keyword file, with any encodings and options on its lines, encodings on the command line in any spelling, options that go together, every address the program is read at, and every sequence of buffers searched", "why_tests_cant": "It ranges over all keyword files and all searched texts, and goes from the bytes of the file through the written program to the hits.", "anchors": ["src/cmd/lg_app.cpp: writeProgram", "src/cmd/options.cpp: Options::validateAndPopulateKeyFiles, getPatternLines", "src/lib/lightgrep_c_api.cpp: lg_add_pattern_list, lg_write_program, lg_read_program, lg_search"]}
