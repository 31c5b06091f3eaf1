{"id": "C01", "title": "Cost table remembers exactly what was stored (array storage)", "statement": "With the plain array storage, reading the cost of a coordinate returns the last cost stored at that coordinate, or 'not calculated' if none was ever stored; storing at one in-range coordinate never changes what any other in-range coordinate reads; and the reported number of calculated costs equals the number of distinct coordinates ever stored (as long as the sentinel -1 itself is never stored).", "quantifier": "every number of dimensions, every dimension size, every history of stores and reads on in-range coordinates", "why_tests_cant": "The table is an arbitrary-dimension mixed-radix array; aliasing between two coordinates depends on all sizes at once and a test can only sample some sizes.", "anchors": ["src/asclite/core/arraylevenshteinmatrix.cpp:ArrayLevenshteinMatrix", "src/asclite/core/arraylevenshteinmatrix.cpp:CoordinatesToSize", "src/asclite/core/arraylevenshteinmatrix.cpp:SetCostFor", "src/asclite/core/arraylevenshteinmatrix.h:GetCostFor"]}
{"id": "C02", "title": "Compressed cost table is observationally the array cost table", "statement": "Provided LZMA decompression inverts compression, every sequence of stores and reads on the block-compressed storage returns the same costs and the same calculated-cell count as on the array storage, no matter when blocks are created, compressed, decompressed or garbage collected in between.", "quantifier": "every history of stores, reads and block evictions, every dimension vector, every block geometry, every lossless codec", "why_tests_cant": "Evictions depend on memory thresholds and access order; tests exercise only a few eviction schedules.", "anchors": ["src/asclite/core/compressedlevenshteinmatrix.cpp:CompressedLevenshteinMatrix", "src/asclite/core/compressedlevenshteinmatrix.cpp:CoordinatesToBlockOffset", "src/asclite/core/compressedlevenshteinmatrix.cpp:GarbageCollection", "src/asclite/core/compressedlevenshteinmatrix.cpp:CompressBlock", "src/asclite/core/compressedlevenshteinmatrix.cpp:DecompressBlock"]}
{"id": "C03", "title": "Block addressing is in range and injective", "statement": "For every in-range coordinate the compressed storage computes a block number below the number of blocks and an offset below the block size, and two different coordinates never share both.", "quantifier": "all dimension vectors, all positive block sizes, all pairs of coordinates", "why_tests_cant": "Collisions appear only for particular combinations of dimension and block sizes.", "anchors": ["src/asclite/core/compressedlevenshteinmatrix.cpp:CoordinatesToBlockOffset", "src/asclite/core/compressedlevenshteinmatrix.cpp:BlockComputation"]}
{"id": "C04", "title": "Compressed storage memory accounting matches the blocks held", "statement": "The amount of memory the compressed storage believes it uses always equals the sum of the sizes of the blocks it holds, so the memory threshold given by the user is honoured.", "quantifier": "every history of block creations, compressions and decompressions", "why_tests_cant": "Drift accumulates over long histories that unit tests do not run.", "anchors": ["src/asclite/core/compressedlevenshteinmatrix.cpp:CreateBlock", "src/asclite/core/compressedlevenshteinmatrix.cpp:CompressBlock", "src/asclite/core/compressedlevenshteinmatrix.cpp:DecompressBlock"]}
{"id": "C05", "title": "Garbage collection of the cost table terminates", "statement": "Every call that triggers a garbage collection of the compressed storage returns.", "quantifier": "every set of block contents, access times and memory thresholds", "why_tests_cant": "Non-termination requires an incompressible least-recently-used block, which small test matrices never contain.", "anchors": ["src/asclite/core/compressedlevenshteinmatrix.cpp:GarbageCollection", "src/asclite/core/compressedlevenshteinmatrix.cpp:ForcedGarbageCollection"]}
{"id": "C06", "title": "asclite alignment cost is the optimum", "statement": "The cost asclite reports for a group of token graphs is the minimum, over all ways of walking one path through every graph in step (each step advancing the hypothesis, a reference, or the hypothesis together with one reference), of the summed step costs.", "quantifier": "all acyclic token graphs (including alternations), all numbers of reference streams, all non-negative cost settings", "why_tests_cant": "The number of alignments is exponential; a test compares against a handful of hand-computed values.", "anchors": ["src/asclite/core/graph.cpp:CalculateCost", "src/asclite/core/graph.cpp:GetBestCost", "src/asclite/core/graph.cpp:PreviousCoordinatesHypRef", "src/asclite/core/graph.cpp:GetTransitionCostHypRefWordBased"]}
{"id": "C07", "title": "asclite retrieved alignment is a real alignment of the reported cost", "statement": "The alignment returned after scoring is a chain of legal steps from the start of all graphs to their ends, and the sum of its step costs equals the reported best cost.", "quantifier": "all acyclic token graphs, all cost settings", "why_tests_cant": "Traceback picks predecessors by re-deriving costs; a mismatch shows up only on particular ties.", "anchors": ["src/asclite/core/graph.cpp:RetrieveAlignment", "src/asclite/core/graph.cpp:GetBestCoordinateAndCost"]}
{"id": "C08", "title": "asclite alignment loses and invents no word", "statement": "Reading off the tokens of one stream from the retrieved alignment, in order and skipping gaps, gives exactly the tokens of one complete start-to-end path through that stream's token graph.", "quantifier": "all acyclic token graphs, every stream", "why_tests_cant": "Dropped or duplicated words depend on graph shape.", "anchors": ["src/asclite/core/graph.cpp:RetrieveAlignment", "src/asclite/core/graphalignedsegment.cpp:GraphAlignedSegment", "src/asclite/core/graphalignedtoken.cpp"]}
{"id": "C09", "title": "The 'both' optionally-deletable setting covers both sides", "statement": "When optionally deletable words are enabled for 'both' reference and hypothesis, optional words on the reference side and on the hypothesis side are both treated as optional; 'ref' and 'hyp' enable exactly their side; 'none' neither.", "quantifier": "all values of the option", "why_tests_cant": "Tests cover the option strings that were thought of, not the meaning of each on both sides.", "anchors": ["src/asclite/core/levenshtein.cpp:Levenshtein", "src/asclite/core/stt_scorer.cpp:STTScorer"]}
{"id": "C10", "title": "Edit distance between tokens is the Levenshtein distance", "statement": "The character edit distance between two token texts equals the minimum number of single-character insertions, deletions and substitutions turning one into the other.", "quantifier": "all pairs of strings", "why_tests_cant": "The claim is about a minimum over all edit scripts.", "anchors": ["src/asclite/core/token.cpp:EditDistance"]}
{"id": "C11", "title": "Token equivalence is a symmetric relation with the documented fragment rule", "statement": "Whether two tokens count as equal does not depend on which is reference and which is hypothesis; two complete words are equal iff their cleaned texts are the same; a fragment equals a word only when the fragment's visible part is a prefix (or suffix) of it.", "quantifier": "all pairs of tokens, all fragment markings", "why_tests_cant": "Symmetry is a property of pairs; substring coincidences are rare in test data.", "anchors": ["src/asclite/core/token.cpp:IsEquivalentTo"]}
{"id": "C12", "title": "Time overlap test is interval intersection", "statement": "Two timed objects are reported overlapping exactly when their closed time intervals share a point, and the test is symmetric.", "quantifier": "all intervals with start not after end", "why_tests_cant": "Boundary coincidences are infinitely many.", "anchors": ["src/asclite/core/timedobject.cpp:OverlapWith"]}
{"id": "C13", "title": "Every reference segment is scored in exactly one group", "statement": "Iterating the segmentor over a file/channel yields groups such that every reference segment belongs to exactly one group, groups come in time order, and a hypothesis segment is in at most one group.", "quantifier": "all finite sets of reference and hypothesis segments with positive durations", "why_tests_cant": "Overlap chains may be arbitrarily long.", "anchors": ["src/asclite/core/ctmstmrttm_segmentor.cpp:Next", "src/asclite/core/ctmstmrttm_segmentor.cpp:GetLastOverlapingSegment", "src/asclite/core/speech.cpp:GetSegmentsByTime"]}
{"id": "C14", "title": "Each aligned pair gets exactly one verdict, and the verdict is right", "statement": "Every aligned (reference, hypothesis) pair is scored as exactly one of correct, substitution, speaker error, deletion or insertion: a missing reference gives an insertion, a missing hypothesis a deletion, equivalent texts with mismatching speakers a speaker error, and so on, with optionally deletable tokens forgiven.", "quantifier": "all aligned pairs, all optional-deletion and speaker settings", "why_tests_cant": "The decision is a product of independent switches.", "anchors": ["src/asclite/core/stt_scorer.cpp:Score"]}
{"id": "C15", "title": "System report counters add up", "statement": "In the asclite raw report, for every speaker the number of reference words equals correct + substitutions + speaker errors + deletions, and the reported error count equals substitutions + speaker errors + deletions + insertions.", "quantifier": "every sequence of scored tokens", "why_tests_cant": "Invariant over arbitrary histories of counter updates.", "anchors": ["src/asclite/core/rawsys_reportgenerator.cpp:RAWSYS_Datas"]}
{"id": "C16", "title": "Speaker mapping lookups return the first mapping loaded for that source, channel and system speaker", "statement": "After loading a speaker map, looking up (source, channel, system speaker) returns the reference speaker of the first entry with that triple, or nothing if no entry has it; different triples never interfere.", "quantifier": "all maps and all lookups", "why_tests_cant": "Key collisions depend on the characters inside names.", "anchors": ["src/asclite/core/speakermatch.cpp:SetSysRef", "src/asclite/core/speakermatch.cpp:GetRef"]}
{"id": "C17", "title": "Alternation notation denotes the right set of word sequences", "statement": "Parsing a transcript with nested alternations '{ a / b }' yields a token graph whose complete paths spell exactly the word sequences denoted by the notation, '@' denoting the empty sequence.", "quantifier": "all well-formed transcripts of any nesting depth", "why_tests_cant": "Languages are exponential in nesting.", "anchors": ["src/asclite/core/linestyle_inputparser.cpp:ParseWords", "src/asclite/core/linestyle_inputparser.cpp:SeparateBySlash", "src/asclite/core/linestyle_inputparser.cpp:Transition"]}
{"id": "C18", "title": "Transcript parsing terminates", "statement": "Parsing any single-line transcript returns or reports an error.", "quantifier": "all strings", "why_tests_cant": "Non-termination needs malformed bracket patterns.", "anchors": ["src/asclite/core/linestyle_inputparser.cpp:ParseWords", "src/asclite/core/linestyle_inputparser.cpp:TokeniseWords"]}
{"id": "C19", "title": "Topological ordering of a segment is topological", "statement": "Listing a segment's tokens in 'topological order' puts every token after all tokens that can precede it, and lists every reachable token exactly once.", "quantifier": "all acyclic token graphs", "why_tests_cant": "Diamonds with unequal arm lengths are needed.", "anchors": ["src/asclite/core/segment.cpp:ToTopologicalOrderedStruct"]}
{"id": "C20", "title": "sclite alignment cost is the optimum over all path pairs", "statement": "The cost of sclite's alignment of two word networks is the minimum, over every path of the reference network, every path of the hypothesis network and every way of aligning them by substitutions, insertions and deletions, of the summed word distances.", "quantifier": "all acyclic networks, all non-negative distance functions bounded by the built-in sentinel", "why_tests_cant": "Exponentially many path pairs.", "anchors": ["src/sclite/net_dp.c:Network_dpalign", "src/sclite/net_dp.c:calculate_internal_cells", "src/sclite/net_dp.c:calculate_margin_cells", "src/sclite/net_dp.c:calc_minimum_substi"]}
{"id": "C21", "title": "sclite reported path is a real alignment of optimal cost", "statement": "The alignment path sclite returns spells a complete path of the reference network on its reference side and a complete path of the hypothesis network on its hypothesis side, and its summed word distances equal the optimal cost.", "quantifier": "all acyclic networks, all distance functions", "why_tests_cant": "Back pointers are stored per cell and could disagree with costs on ties.", "anchors": ["src/sclite/net_dp.c:extract_NET_ALIGN_result", "src/sclite/net_dp.c:find_arcset_id"]}
{"id": "C22", "title": "Network traversal visits every arc once, never before its predecessors", "statement": "The in-order traversal used to number arcs visits each node exactly once and only after every node with an arc into it.", "quantifier": "all acyclic single-source networks", "why_tests_cant": "Order depends on the graph shape and flag state left from earlier traversals.", "anchors": ["src/sclite/net_adt.c:Network_traverse", "src/sclite/net_dp.c:setup_NET_ALIGN"]}
{"id": "C23", "title": "Null alternatives never reach the scored path and optional words are forgiven", "statement": "In the scored path no '@' placeholder appears; an unmatched optionally deletable reference or hypothesis word is scored correct with an empty counterpart; a matched pair is correct iff the words are equal; everything else keeps its error class.", "quantifier": "all traceback paths", "why_tests_cant": "Combination of flags on both sides along arbitrary paths.", "anchors": ["src/sclite/net_dp.c:extract_NET_ALIGN_result", "src/sclite/word.c:null_alt_WORD", "src/sclite/word.c:opt_del_WORD"]}
{"id": "C24", "title": "Error counts balance with word counts", "statement": "After scoring any set of alignment paths made of correct, substituted, inserted and deleted entries (the aligner makes no others), for every speaker correct + substituted + deleted equals the number of reference-side entries and correct + substituted + inserted equals the number of hypothesis-side entries; the totals do not depend on the order in which utterances are scored; an utterance is counted wrong iff it has at least one error.", "quantifier": "all multisets of paths, all orders", "why_tests_cant": "Invariant over arbitrary histories.", "anchors": ["src/sclite/scores.c:add_PATH_score"]}
{"id": "C25", "title": "Word equality used for scoring is an equivalence-like relation", "statement": "Whether two words are judged the same does not depend on the order of the arguments, every word equals itself, and with fragment correction a fragment matches exactly the words it is a prefix of.", "quantifier": "all pairs of words and flag settings", "why_tests_cant": "Symmetry ranges over pairs of strings and hyphen positions.", "anchors": ["src/sclite/word.c:equal_WORD2"]}
{"id": "C26", "title": "ROVER alignment keeps one entry per system in every slot and every system's words in order", "statement": "After combining n+1 system outputs, every slot of the combined lattice holds exactly n+1 entries, one per system, and reading off one system's non-null entries slot by slot gives exactly that system's word sequence.", "quantifier": "all numbers of systems, all word sequences, all alignments the aligner may choose", "why_tests_cant": "Depends on arbitrary alignments at each of arbitrarily many merge steps.", "anchors": ["src/sclite/net_dp.c:create_alinged_NETWORK", "src/sclite/net_dp.c:Network_dpalign_n_networks", "src/sclite/net_adt.c:NETWORK_insert_arc_before_node"]}
{"id": "C27", "title": "ROVER picks a highest-scoring word", "statement": "For each slot ROVER outputs a word whose voting score is at least that of every other candidate, the earliest candidate winning ties, and outputs nothing when the winner is the null word; with pure frequency voting the winner is a word proposed by the largest number of systems.", "quantifier": "all slots, all confidences, all voting parameters", "why_tests_cant": "Arg-max over arbitrary real scores.", "anchors": ["src/sclite/rover.c:print_linear"]}
{"id": "C28", "title": "Time-sorting an alignment only reorders within insertion/deletion runs", "statement": "Sorting an alignment by time marks permutes its entries, never moves a correct or substituted entry, leaves each run of insertions/deletions ordered by start time, and keeps the order of words on each side when their times are already non-decreasing.", "quantifier": "all alignment paths and all time marks", "why_tests_cant": "Sorting correctness over all sequences.", "anchors": ["src/sclite/path.c:sort_PATH_time_marks"]}
{"id": "C29", "title": "Alignment printing prints every entry once and terminates", "statement": "Printing an alignment to a given line width terminates and prints every entry exactly once, in order.", "quantifier": "all paths, all word lengths, all widths", "why_tests_cant": "Needs words longer than the line.", "anchors": ["src/sclite/path.c:PATH_n_print"]}
{"id": "C30", "title": "Speaker groups: same name same group, different name different group, storage never overrun", "statement": "Asking for a speaker's score group returns the same group for the same name at all times, different groups for different names, never disturbs existing counts, and never indexes outside the allocated storage.", "quantifier": "every sequence of requests", "why_tests_cant": "History property with reallocation.", "anchors": ["src/sclite/scores.c:SCORES_get_grp", "src/sclite/scores.c:SCORES_init"]}
{"id": "C31", "title": "Mean ranks are right", "statement": "The rank assigned to each value is the average of the positions its equal values would occupy in sorted order (so equal values get equal ranks, larger values larger ranks, and ranks always sum to n(n+1)/2).", "quantifier": "all arrays of any length, any ties, any order in which a sort routine leaves ties", "why_tests_cant": "qsort is unstable: results must hold for every sorted permutation.", "anchors": ["src/sclite/order.c:rank_double_arr", "src/sclite/order.c:rank_int_arr"]}
{"id": "C32", "title": "Sign test verdict is order independent and names the system that wins more often", "statement": "Swapping the two systems flips the verdict; when a significant difference is reported, the system named better is the one that is better on more speakers.", "quantifier": "all score tables", "why_tests_cant": "Direction is decided by the mean, significance by counts; disagreement needs skewed data.", "anchors": ["src/sclite/signtest.c:compute_signtest_for_treatment", "src/sclite/signtest.c:sign_test_analysis"]}
{"id": "C33", "title": "McNemar test verdict follows the exact binomial level", "statement": "Swapping systems flips the verdict, the better system is the one with fewer unique errors, and significance is declared only when the two-tailed probability of so unbalanced a split of n fair coin tosses is below 5%.", "quantifier": "all 2x2 tables", "why_tests_cant": "Small samples use the exact sum, large ones an approximation with separate code; tests rarely reach the second branch with near-balanced counts.", "anchors": ["src/sclite/sentmcn.c:do_McNemar", "src/sclite/sentmcn.c:compute_McNemar", "src/sclite/statdist.c:compute_acc_binomial", "src/sclite/statdist.c:n_CHOOSE_r"]}
{"id": "C34", "title": "Wilcoxon rank sums are complete", "statement": "In the signed-rank test the positive and negative rank sums always add to n(n+1)/2 and the positive and negative counts to n, and swapping the two systems exchanges the verdict when the two system totals differ and no speaker is tied.", "quantifier": "all score tables", "why_tests_cant": "Sums over arbitrary data with ties.", "anchors": ["src/sclite/wilcoxon.c:compute_wilcoxon_for_treatment", "src/sclite/order.c:rank_double_arr"]}
{"id": "C35", "title": "Matched-pair segmentation counts each error exactly once", "statement": "Splitting a pair of alignments of the same reference into matched-pair segments yields segments whose error counts sum, for each system, to that system's errors in the sentence, and every segment has at least one error.", "quantifier": "all pairs of alignments with the same number of reference words, every minimum number of good words", "why_tests_cant": "State machine over arbitrary interleavings of insertions.", "anchors": ["src/sclite/mtchprs.c:test_comp_sents", "src/sclite/mtchprs.c:count_seg", "src/sclite/mtchprs.c:seg_count"]}
{"id": "C36", "title": "Every hypothesis word is scored in exactly one utterance", "statement": "Distributing time-marked hypothesis words over the reference utterances of a channel assigns every word to exactly one utterance, in order, and a word goes to the first not-yet-finished utterance whose end lies after the word's midpoint (or the last).", "quantifier": "all word and utterance sequences", "why_tests_cant": "Order/time interactions of arbitrary sequences.", "anchors": ["src/sclite/stm2ctm.c:segment_hyp_for_utt", "src/sclite/stm2ctm.c:align_one_channel"]}
{"id": "C37", "title": "Overlap amount is the signed length of the intersection", "statement": "The overlap function returns min(end1,end2) - max(start1,start2), and is symmetric.", "quantifier": "all four time values", "why_tests_cant": "Case analysis over all orderings.", "anchors": ["src/sclite/ctm2ctm.c:overlap"]}
{"id": "C38", "title": "Splitting systems at common silences loses no word", "statement": "Chunking the systems at common silences partitions each system's words of a channel into consecutive chunks: every word is in exactly one chunk, order preserved, and each call that reports more data makes progress.", "quantifier": "all word sequences, all numbers of systems, all silence thresholds", "why_tests_cant": "Depends on arbitrary time patterns.", "anchors": ["src/sclite/mfa.c:find_common_silence", "src/sclite/mfa.c:gap_at_times", "src/sclite/mfa.c:mfalign_ctm_files", "src/sclite/rover.c:mfalign_ctm_files_v1"]}
{"id": "C39", "title": "Reading a line returns the whole line", "statement": "The growing line reader returns exactly the next line of the file (including its newline if present) regardless of its length and the current buffer size.", "quantifier": "all file contents without NUL bytes, all initial buffer sizes of at least 2", "why_tests_cant": "Line lengths near powers-of-two multiples of the buffer.", "anchors": ["src/sclite/text.c:TEXT_ensure_fgets"]}
{"id": "C40", "title": "Text comparison is a total order consistent with equality", "statement": "Comparing texts in any supported encoding is antisymmetric and transitive and returns 0 exactly for identical texts, so sorting and binary search over texts are meaningful.", "quantifier": "all valid texts in ASCII, GB and UTF-8 encodings", "why_tests_cant": "Total-order axioms range over triples.", "anchors": ["src/sclite/text.c:TEXT_strcmp_master", "src/sclite/text.c:in_TEXT_LIST"]}
{"id": "C41", "title": "UTF-8 encoding round trips", "statement": "Encoding a code point to text and decoding it gives the same code point for every code point the encoder accepts, and every Unicode code point is accepted.", "quantifier": "all code points", "why_tests_cant": "One million code points; boundaries between lengths.", "anchors": ["src/sclite/text.c:TEXT_UTFCodePointToTEXT", "src/sclite/text.c:TEXT_getUTFCodePoint"]}
{"id": "C42", "title": "Escaping word parts round trips", "statement": "Writing a word's parts with separators escaped and reading them back gives the same parts.", "quantifier": "all texts", "why_tests_cant": "Escape characters in the data themselves.", "anchors": ["src/sclite/text.c:TEXT_strcpy_escaped", "src/sclite/text.c:TEXT_strBdup_noEscape", "src/sclite/word.c:nextColon", "src/sclite/word.c:new_WORD_parseText"]}
{"id": "C43", "title": "Linked lists behave as sequences", "statement": "Copying a list gives an equal list and appending, prepending and removing the first element act on the list as on a finite sequence.", "quantifier": "all sequences of list operations", "why_tests_cant": "History property.", "anchors": ["src/sclite/llist.c:LL_copy", "src/sclite/llist.c:LL_put_front", "src/sclite/llist.c:LL_put_tail", "src/sclite/llist.c:LL_get_first"]}
{"id": "C44", "title": "Separating characters keeps the characters", "statement": "Splitting a text into characters for character scoring only inserts blanks: removing blanks from the result gives the input without blanks (and without hyphens if hyphen deletion was requested).", "quantifier": "all valid texts", "why_tests_cant": "All strings.", "anchors": ["src/sclite/text.c:TEXT_separate_chars"]}
{"id": "C45", "title": "Field extraction returns the requested field", "statement": "Asking for the n-th whitespace-separated field of a line returns that field.", "quantifier": "all lines, all n", "why_tests_cant": "All strings and indices.", "anchors": ["src/sclite/text.c:TEXT_nth_field"]}
{"id": "C46", "title": "Every hypothesis utterance is matched with its own reference or the run stops", "statement": "Loading references for a list of hypothesis ids succeeds only if every hypothesis id has a reference, and then each hypothesis gets the reference with the identical id.", "quantifier": "all id lists", "why_tests_cant": "All files.", "anchors": ["src/sclite/align.c:load_refs"]}
{"id": "C47", "title": "Significance tests compare the same speaker across systems", "statement": "The table on which significance tests run puts in each row the scores of one and the same speaker for all systems.", "quantifier": "all sets of systems with the same speakers listed in any order", "why_tests_cant": "Needs permuted speaker lists.", "anchors": ["src/sclite/rank.c:init_RANK_struct_from_SCORES", "src/sclite/corresp.c:find_matched_grp"]}
{"id": "C48", "title": "Centred text has the requested width", "statement": "Centring a string to a width returns the string with only blanks added on both sides, as wide as requested (or the string itself when it is wider), left and right blanks differing by at most one.", "quantifier": "all strings and widths below the buffer size", "why_tests_cant": "All strings and widths.", "anchors": ["src/sclite/pad.c:center", "src/sclite/pad.c:strncpy_pad"]}
{"id": "C49", "title": "Alignments reported to share a reference do share it", "statement": "When several systems' alignments are reported to have identical references, their reference word sequences are identical.", "quantifier": "all sets of alignments", "why_tests_cant": "Prefix situations.", "anchors": ["src/sclite/corresp.c:identical_refs"]}
{"id": "C50", "title": "Identifiers given to speech objects are unique", "statement": "Within a run no two objects of one kind receive the same identifier.", "quantifier": "every history of object creations", "why_tests_cant": "History property.", "anchors": ["src/asclite/core/id.cpp"]}
{"id": "C51", "title": "Alignment graph coordinates: every reachable coordinate has a way back to the start", "statement": "Following predecessors from any coordinate reachable in the alignment graph never gets stuck before a start coordinate, and always terminates.", "quantifier": "all acyclic token graphs", "why_tests_cant": "Induction over graphs.", "anchors": ["src/asclite/core/graph.cpp:PreviousCoordinatesHypRef", "src/asclite/core/graph.cpp:StartingCoordinates"]}
{"id": "C52", "title": "Step costs are the documented sums", "statement": "The cost of putting a hypothesis word beside a reference word is: nothing for equal words (the speaker cost when speaker matching is on and the speakers do not correspond), the substitution cost plus the edit distance when enabled for different words, plus the adaptive unit times the silence between the words over the group duration when enabled; with time based costs, the substitution unit times the boundary differences plus the speaker cost, divided by the safety divider.", "quantifier": "all pairs of words with any times, all settings", "why_tests_cant": "The number of combinations of settings and relative positions in time.", "anchors": ["src/asclite/core/graph.cpp:GetCostTransitionWordBased", "src/asclite/core/graph.cpp:GetCostTransitionTimeBased", "src/asclite/core/graph.cpp:GetCostAdaptive"]}
{"id": "C53", "title": "Ties in the asclite traceback go to paired words", "statement": "Among equally cheap ways back from a position, the traceback takes a step that consumes a word on both sides whenever one exists.", "quantifier": "all inputs and positions", "why_tests_cant": "Depends on the order in which predecessors are produced.", "anchors": ["src/asclite/core/graph.cpp:GetBestCoordinateAndCost"]}
{"id": "C54", "title": "Marks around a word are removed exactly", "statement": "A word written with optional parentheses and/or a fragment hyphen at one side is shown without those marks, and is reported as optional and as the beginning or end of a word exactly according to the marks, provided the word itself neither starts nor ends with a hyphen and an unmarked word is not itself in parentheses.", "quantifier": "all words of any length, both optional states, all three fragment states", "why_tests_cant": "Unbounded words; the code works with start/size arithmetic on unsigned integers that can wrap.", "anchors": ["src/asclite/core/token.cpp:UpdateCleanedUpTextIfNeeded", "src/asclite/core/token.cpp:GetText"]}
{"id": "C55", "title": "Every hypothesis set is segmented against all references", "statement": "When several hypothesis files are scored against the same references, resetting the segmentor for each of them makes the iteration deliver all reference segments again.", "quantifier": "all reference sets, any number of hypothesis sets", "why_tests_cant": "Depends on the state left by the previous complete iteration.", "anchors": ["src/asclite/core/ctmstmrttm_segmentor.cpp:Reset", "src/asclite/core/recording.cpp:AlignHypRef"]}
{"id": "C56", "title": "The time-safe divider is the largest common power of ten", "statement": "For an object with real times, the divider used by time-based costs is the largest power of ten that divides both its start and its end time.", "quantifier": "all start and end times", "why_tests_cant": "All pairs of integers; one of them makes the loop run out of the range of int.", "anchors": ["src/asclite/core/timedobject.cpp:TimeSafeDivider"]}
{"id": "C57", "title": "Each system's report counts only that system", "statement": "When several systems are scored in one run, the counts printed for one system are the counts of that system's alignment only.", "quantifier": "all sequences of systems and all alignments", "why_tests_cant": "Depends on state kept between reports; every sequence of systems would have to be tried.", "anchors": ["src/asclite/core/rawsys_reportgenerator.cpp:Generate", "src/asclite/core/rawsys_reportgenerator.cpp:GenerateSystem"]}
{"id": "C58", "title": "Reported reference words are reference words", "statement": "The number of reference words in the summary report is the number of reference words that were aligned.", "quantifier": "all alignments and all settings of optional words", "why_tests_cant": "Must hold for every alignment under every setting; one setting violates it.", "anchors": ["src/asclite/core/rawsys_reportgenerator.cpp:AddCorrectWord", "src/asclite/core/stt_scorer.cpp:Score"]}
{"id": "C59", "title": "The scored path fits the space allocated for it", "statement": "The number of words sclite stores in the path of an alignment is exactly the number it counted and allocated beforehand.", "quantifier": "all acyclic networks, all distance functions, with and without null words", "why_tests_cant": "Counting and filling use different tests in a different order; a mismatch would be a heap overrun on some input only.", "anchors": ["src/sclite/net_dp.c:extract_NET_ALIGN_result"]}
{"id": "C60", "title": "Case conversion stays inside its buffer", "statement": "Converting any text to lower or upper case never writes past the end of the buffer used for the conversion, whatever texts were converted before.", "quantifier": "all encodings, all language profiles, all texts and all previous conversions", "why_tests_cant": "The buffer is static and grows by a factor depending on its current size; only certain sequences of texts overrun it, and only by a few bytes.", "anchors": ["src/sclite/text.c:TEXT_str_to_master", "src/sclite/memory.h:expand_singarr"]}
{"id": "C61", "title": "Case-insensitive comparison identifies exactly the two cases of a letter", "statement": "For every language profile, converting to lower (upper) case is idempotent, gives the same result after a conversion to the other case, converts each character by the profile's letter pairs and keeps well-formed text; two texts are equal without regard to case exactly if their lower-case forms are the same.", "quantifier": "all profiles, all texts of any length", "why_tests_cant": "Letter tables are long and profile specific; the claim is about all characters and texts.", "anchors": ["src/sclite/text.c:getKnownUFTCaseCP", "src/sclite/text.c:TEXT_str_to_master", "src/sclite/text.c:TEXT_strcasecmp"]}
{"id": "C62", "title": "Tokenising gives exactly the fields", "statement": "Repeatedly taking tokens from a text gives exactly the maximal runs of characters that are not separators, in order, in every encoding.", "quantifier": "all encodings, all texts, all sets of ASCII separators", "why_tests_cant": "Texts are unbounded, the position is kept in a static variable between calls, and multi-byte characters are skipped by their announced length.", "anchors": ["src/sclite/text.c:TEXT_strtok"]}
{"id": "C63", "title": "The first alternative is chosen", "statement": "Where alternatives cannot be scored, the words delivered for a transcript are its words with the first alternative chosen in every alternation, and without null words.", "quantifier": "all transcripts with any number of alternations", "why_tests_cant": "State is kept between calls; the claim is about all transcripts, including nested alternations.", "anchors": ["src/sclite/text.c:tokenize_TEXT_first_alt", "src/sclite/stm.c:fill_STM_structure", "src/sclite/align.c:align_trans_mode_diff"]}
{"id": "C64", "title": "Quoted separators do not separate", "statement": "When a scored path is read back from an SGML file, separators inside double quotes do not end an entry, and all other separators do.", "quantifier": "all texts with any number of quotes, all encodings", "why_tests_cant": "Texts are unbounded and the scan position is kept between calls.", "anchors": ["src/sclite/text.c:TEXT_strqtok", "src/sclite/scores.c:load_SCORES_sgml"]}
{"id": "C65", "title": "SGML alignment lines round trip", "statement": "Writing a scored path to an SGML report and loading the report gives the same alignment: the same evaluations, the same words, and the requested times, confidences and weights attached to the same words.", "quantifier": "all paths, all words, all sets of requested auxiliary values, all encodings", "why_tests_cant": "Words are arbitrary texts that may contain the structuring characters; paths are unbounded.", "anchors": ["src/sclite/scores.c:dump_SCORES_sgml", "src/sclite/scores.c:load_SCORES_sgml", "src/sclite/scores.c:formatWordForSGML", "src/sclite/text.c:TEXT_strqtok"]}
{"id": "C66", "title": "Report titles are preceded by half of the free width", "statement": "The padding computed for a title of n characters on a line of width w has (w-n)/2 blanks, cut to the buffer, and nothing is written outside of the buffer.", "quantifier": "all widths, titles and buffer sizes of at least one byte", "why_tests_cant": "All widths and texts, including texts wider than the line where unsigned arithmetic wraps.", "anchors": ["src/sclite/pad.c:set_pad", "src/sclite/pad.c:set_pad_n", "src/sclite/pad.c:set_pad_cent_n"]}
{"id": "C67", "title": "The Wilcoxon test names the system the ranks favour", "statement": "When the signed-rank test reports a difference, the system named better is the one whose favourable differences have the larger rank sum.", "quantifier": "all score tables without ties", "why_tests_cant": "Tables are unbounded; the two directions agree on most small examples.", "anchors": ["src/sclite/wilcoxon.c:wilcoxon_test_analysis", "src/sclite/wilcoxon.c:compute_wilcoxon_for_treatment"]}
{"id": "C68", "title": "The matched-pairs verdict is antisymmetric and names the system with fewer errors", "statement": "Naming the two systems in the other order flips the matched-pairs verdict; a system reported as better made fewer errors in the compared sentences; a difference is reported exactly when the normalised mean difference of the segments exceeds the threshold.", "quantifier": "all pairs of systems with distinct speakers and sentences aligned to the same references, every minimum number of good words", "why_tests_cant": "Systems, sentences and alignments are unbounded; asymmetric handling of one side is hard to hit by examples.", "anchors": ["src/sclite/mtchprs.c:do_mtch_pairs_on_sys", "src/sclite/mtchprs.c:Z_pass", "src/sclite/statdist.c:calc_mean_var_std_dev_Zstat", "src/sclite/mtchprs.c:analyze_Z_score"]}
{"id": "C69", "title": "Time-marked hypotheses are distributed over files and channels without loss or an error is reported", "statement": "When a time-marked hypothesis is scored against segments, every hypothesis word is scored with an utterance of its own file and channel, in order and exactly once, and an error is reported exactly when the hypothesis's sequence of files and channels is not contained, in order, in the reference's.", "quantifier": "all hypotheses with complete alternations and all references, any number and order of files, channels, utterances and words", "why_tests_cant": "The numbers of files, channels, utterances and words are unbounded, as is the way in which the two sequences can disagree.", "anchors": ["src/sclite/stm2ctm.c:align_ctm_to_stm_dp", "src/sclite/fillmrks.c:locate_WTOKE_boundary", "src/sclite/stm.c:locate_STM_boundary"]}
{"id": "C70", "title": "Combining files at common silences uses every word of every file", "statement": "When the outputs of several recognisers are combined, every word of every file takes part in exactly one alignment, in order and only with words of the same recording and channel, or the disagreement between the files is reported.", "quantifier": "all sets of time-marked files, any number of recordings, channels and words, all silence thresholds", "why_tests_cant": "The loop over recordings depends on the sizes of all files at once; loss at the end of a file is easily missed.", "anchors": ["src/sclite/mfa.c:mfalign_ctm_files", "src/sclite/mfa.c:locate_next_file_channel", "src/sclite/rover.c:mfalign_ctm_files_v1"]}
{"id": "C71", "title": "Printed alignments line up and fit the line width", "statement": "In every block of a printed alignment the reference, hypothesis and evaluation lines have the same length and every entry has the same column in each of them; all lines but those of the last block are shorter than the requested width.", "quantifier": "all alignments with words of any length, all line widths, with or without word-level numbers", "why_tests_cant": "Word lengths, line widths and numbers of entries are unbounded.", "anchors": ["src/sclite/path.c:PATH_n_print"]}
{"id": "C72", "title": "The alignment report lists every sentence once in order of alignment", "statement": "A report of alignments in order of alignment contains every sentence of every speaker exactly once, each speaker's sentences in their stored order, and in order of alignment overall if each speaker's sentences are.", "quantifier": "all score structures, any number of speakers and sentences", "why_tests_cant": "Interleavings of any number of speakers; limits only show with very many sentences.", "anchors": ["src/sclite/scores.c:dump_SCORES_alignments", "src/sclite/path.c:PATH_set_sequence"]}
{"id": "C73", "title": "Systems are compared on the same speakers and sentences", "statement": "When several systems are compared, every matched row consists of speakers of the same name and sentences of the same identifier in all systems, and everything common to all systems is matched.", "quantifier": "any number of systems, speakers and sentences in any order", "why_tests_cant": "Losses show only for particular combinations of missing speakers and orders.", "anchors": ["src/sclite/corresp.c:find_matched_grp", "src/sclite/corresp.c:find_matched_paths"]}
{"id": "C74", "title": "The lattice analysis counts the words no system got right", "statement": "For systems with the same reference the lattice analysis reports the number of reference words and of those that no system recognised.", "quantifier": "any number of systems and alignments of any length", "why_tests_cant": "Alignments with insertions in different places have to be kept in step; unbounded.", "anchors": ["src/sclite/corresp.c:lattice_error"]}
{"id": "C75", "title": "The combined print shows every alignment completely", "statement": "The combined print of several systems ends, has one column per reference word with every system's entry for it, in order, and shows each system's whole alignment.", "quantifier": "any number of systems whose alignments are reported to share the reference", "why_tests_cant": "Any interleaving of insertions over any number of systems.", "anchors": ["src/sclite/corresp.c:PATH_multi_print", "src/sclite/corresp.c:process_inserts", "src/sclite/corresp.c:process_rest"]}
{"id": "C76", "title": "Utterances are counted for the speaker named in their identifier", "statement": "When transcripts are scored, every utterance is counted for the speaker its identifier names under the chosen identifier convention, or the run stops.", "quantifier": "all transcript files, identifiers and conventions", "why_tests_cant": "The effect of an identifier that cannot be parsed depends on the utterances before it.", "anchors": ["src/sclite/align.c:extract_speaker", "src/sclite/align.c:align_trans_mode_dp", "src/sclite/align.c:remove_id"]}
{"id": "C77", "title": "Missing references are named", "statement": "When references are missing, exactly the identifiers without a reference are listed.", "quantifier": "all sets of identifiers and references", "why_tests_cant": "Depends on where in the sorted order the missing identifiers are.", "anchors": ["src/sclite/align.c:load_refs"]}
{"id": "C78", "title": "Signs need no blanks in transcripts", "statement": "In a transcript line the signs { } / @ are separate words whether or not there are blanks around them; all other words are separated by white space or signs.", "quantifier": "All lines of characters.", "why_tests_cant": "The insertion of blanks works on positions in a growing string; tests cover a few spacings, not every combination of signs, blanks, tabs and line ends.", "anchors": ["src/asclite/core/linestyle_inputparser.cpp:FilterSpace", "src/asclite/core/linestyle_inputparser.cpp:SeparateBySlash", "src/asclite/core/linestyle_inputparser.cpp:TokeniseWords"]}
{"id": "C79", "title": "Times of the words in a timed transcript token", "statement": "When one timed token written with alternatives is expanded, every resulting word lies within the time of the token, and a word that follows another does not start before the other ends.", "quantifier": "All texts and all begin and end times.", "why_tests_cant": "The number and nesting of alternatives and the rounding of the division are unbounded.", "anchors": ["src/asclite/core/linestyle_inputparser.cpp:ParseWords", "src/asclite/core/linestyle_inputparser.cpp:ParseWordsEx"]}
{"id": "C80", "title": "The token graph of a transcript has no cycle", "statement": "Whatever the transcript line, following the links from token to token never comes back to a token already visited.", "quantifier": "All lines on which the parser returns, and all paths.", "why_tests_cant": "The aligner recurses over predecessors and would not return on a cycle; tests exercise only a few nestings.", "anchors": ["src/asclite/core/linestyle_inputparser.cpp:ParseWords", "src/asclite/core/linestyle_inputparser.cpp:Attach", "src/asclite/core/linestyle_inputparser.cpp:Transition"]}
{"id": "C81", "title": "The network of a text with alternatives can be read as exactly the readings of the text", "statement": "When sclite reads a text with groups of alternatives, { a / b c / ... }, possibly nested, the word network it aligns with has as its word sequences exactly those obtained by choosing one alternative of every group: no reading is lost and none is added.", "quantifier": "All texts made of words and groups, however many groups and alternatives, whatever the spacing.", "why_tests_cant": "The number of readings is exponential in the number of groups and the network is built by merging and deleting arcs during a traversal; tests look at a few alignments.", "anchors": ["src/sclite/net_adt.c:Network_create_from_TEXT", "src/sclite/net_adt.c:expand_alternates", "src/sclite/net_adt.c:Network_merge_network", "src/sclite/net_adt.c:Network_delete_arc", "src/sclite/text.c:find_next_TEXT_token", "src/sclite/text.c:find_next_TEXT_alternation"]}
{"id": "C82", "title": "Texts with alternatives are aligned at the best readings", "statement": "sclite's alignment of a reference text with a hypothesis text, either with alternatives, has the lowest total cost over all readings of both, and the path reported is an alignment of one reading of each.", "quantifier": "All pairs of texts, all pairs of readings, all alignments of them.", "why_tests_cant": "Tests cannot enumerate the readings and their alignments.", "anchors": ["src/sclite/net_adt.c:Network_create_from_TEXT", "src/sclite/net_dp.c:Network_dpalign", "src/sclite/align.c:align_trans_mode_dp"]}
{"id": "C83", "title": "A UEM file keeps exactly the reference segments inside its regions", "statement": "When asclite filters the references with a UEM file, a reference segment is kept, in its place, exactly if it lies within a region given for its file and channel; a segment that a region's end cuts in two is reported as an error.", "quantifier": "All UEM files, all reference speeches with consistently linked words, all times.", "why_tests_cant": "Regions and segments can be in any number and any relative position, equality of ends included; tests try a few positions.", "anchors": ["src/asclite/core/uemfilter.cpp:UEMFilter::ProcessSingleSpeech", "src/asclite/core/uemfilter.cpp:UEMFilter::FindElement", "src/asclite/core/speech.cpp:Speech::RemoveSegment"]}
{"id": "C84", "title": "A UEM file keeps exactly the hypothesis words whose middle is inside a region", "statement": "When asclite filters a hypothesis with a UEM file, a segment is kept, in its place, exactly if its middle lies in a region given for its file and channel; no hypothesis segment is ever an error.", "quantifier": "All UEM files, all hypothesis speeches with consistently linked words, all times.", "why_tests_cant": "As for references.", "anchors": ["src/asclite/core/uemfilter.cpp:UEMFilter::ProcessSingleSpeech", "src/asclite/core/uemfilter.cpp:UEMFilter::FindElement", "src/asclite/core/speech.cpp:Speech::RemoveSegment"]}
{"id": "C85", "title": "Removing segments closes the gap in the chain of words", "statement": "After segments have been removed by a filter, the words of the remaining segments follow each other as they did before: each word is linked to the next remaining word, and to no removed one.", "quantifier": "All speeches, all sets of segments removed.", "why_tests_cant": "The links are changed step by step while segments are destroyed; the result depends on the whole set of removed segments and on alternatives next to them.", "anchors": ["src/asclite/core/speech.cpp:Speech::RemoveSegment", "src/asclite/core/token.cpp:Token::UnlinkNextToken", "src/asclite/core/token.cpp:Token::UnlinkPrevToken", "src/asclite/core/uemfilter.cpp:UEMFilter::ProcessSingleSpeech"]}
{"id": "C86", "title": "Inter-segment gaps fill exactly the rest of the UEM regions", "statement": "With a UEM file and inter-segment gaps asked for, the gaps added for a file and channel do not overlap, and together they cover exactly the time that is inside a region and in which no reference segment lies.", "quantifier": "All references whose speakers do not overlap themselves, all disjoint regions containing the references, all moments.", "why_tests_cant": "The gaps are found by sorting all region and group ends and pairing them; the statement is about every moment for any number of regions and groups.", "anchors": ["src/asclite/core/uemfilter.cpp:UEMFilter::ProcessSpeechSet", "src/asclite/core/ctmstmrttm_segmentor.cpp:CTMSTMRTTMSegmentor::Next"]}
{"id": "C87", "title": "Inter-segment gaps without a UEM file", "statement": "Without a UEM file the gaps added for a file and channel cover exactly the time between the earliest and the latest time of references and hypotheses in which no reference segment lies.", "quantifier": "All references whose speakers do not overlap themselves, all hypotheses in the same files and channels, all moments.", "why_tests_cant": "The statement is about every moment, for any number of segments; the parity of the number of hypothesis segments turns out to matter.", "anchors": ["src/asclite/core/uemfilter.cpp:UEMFilter::ProcessSpeechSet"]}
{"id": "C88", "title": "The self-overlap check finds exactly the overlaps", "statement": "asclite's check for speakers overlapping themselves reports no error exactly if the segments of each speaker in a file and channel come in time order without overlap.", "quantifier": "All speeches.", "why_tests_cant": "The check compares neighbours only; that this suffices, and when, is a statement about all orders of segments.", "anchors": ["src/asclite/core/spkrautooverlap.cpp:SpkrAutoOverlap::ProcessSingleSpeech"]}
{"id": "C89", "title": "Rules are applied from left to right, the first rule of the file first", "statement": "rfilter1 turns a text into the one text got by going from left to right, replacing at each place the source of the first rule in file order that applies (source and both contexts taken from the original text) by its target and going on behind the source, and copying a byte where no rule applies. The lookup through the index by first letter makes no difference, and a text where no rule applies is unchanged.", "quantifier": "All rule sets read from a file, all texts without NUL, all places.", "why_tests_cant": "The index, its two-level construction and the skipping of replaced text interact for every order of rules; only a statement for all rule sets and texts shows that the index never changes the choice.", "anchors": ["src/rfilter1/include/aprules2.c:apply_rules2", "src/rfilter1/include/grules2.c:get_rules2"]}
{"id": "C90", "title": "The filter always ends", "statement": "rfilter1 ends for every rule file and every input, also with rules whose source is empty or whose target contains the source; at most as many replacements are made as the text has bytes, and a rule with an empty source is never used.", "quantifier": "All rule files and inputs (any bytes).", "why_tests_cant": "Non-termination cannot be observed by a test, and the statement covers all rule files.", "anchors": ["src/rfilter1/rfilter1.c:main", "src/rfilter1/include/aprules2.c:apply_rules2", "src/rfilter1/include/grules2.c:get_rules2"]}
{"id": "C91", "title": "The filter keeps lines apart", "statement": "With copying of unmatched text on, the output of rfilter1 has as many lines as the input, and each output line is what the rules make of the input line with the same number.", "quantifier": "All rule files that are read, all inputs of lines shorter than the line buffer.", "why_tests_cant": "That no rule from any file can contain or match a newline is a statement about all rule files.", "anchors": ["src/rfilter1/rfilter1.c:main", "src/rfilter1/include/grules2.c:get_rules2"]}
{"id": "C92", "title": "Rules are read as they are written", "statement": "A line `source => target / left __ right` (context optional, each part bare, in brackets or in quotes, white space free) is read as the rule with exactly these parts.", "quantifier": "All rules and all ways of writing them.", "why_tests_cant": "The parts are found by searching for marks that may also occur inside parts; which texts are safe is a statement about all texts.", "anchors": ["src/rfilter1/include/grules2.c:r_process_data_line"]}
{"id": "C93", "title": "Rule files are read line by line", "statement": "Reading a rule file gives the rules of its rule lines in order and the last value of each setting; comments after the comment flag and blank lines are ignored. Filtering with the file is rewriting with these rules.", "quantifier": "All rule files of well-written lines, all inputs.", "why_tests_cant": "Any number and order of lines, settings and remarks; the table limit and the place of settings matter.", "anchors": ["src/rfilter1/include/grules2.c:get_rules2", "src/rfilter1/include/grules2.c:r_process_aux_line", "src/rfilter1/include/remcomm.c:remove_comments", "src/rfilter1/rfilter1.c:main"]}
{"id": "C94", "title": "Case-insensitive rules do not see case", "statement": "With CASE_SENSITIVE off, texts that differ only in the case of letters are changed by the same rules in the same order, and the results differ only in the case of letters; with it on a rule applies only to the exact bytes.", "quantifier": "All rule sets, all pairs of texts that differ in case only.", "why_tests_cant": "A relation between two runs, for all texts.", "anchors": ["src/rfilter1/include/aprules2.c:apply_rules2", "src/rfilter1/include/grules2.c:get_rules2"]}
{"id": "C95", "title": "When the filter stays within its buffers", "statement": "Applying rules to a text stays within memory exactly unless a source stands closer to the start of the text than its left context is long, or the result is longer than the output buffer; a text beginning with a blank is safe from the first when left contexts are at most one byte and no source begins with a blank.", "quantifier": "All rule sets and texts.", "why_tests_cant": "Reads before a buffer go unnoticed in tests; the exact condition is a statement about all rules and texts.", "anchors": ["src/rfilter1/include/aprules2.c:apply_rules2"]}
{"id": "C96", "title": "The network of a CTM file spells its readings", "statement": "A CTM file of words and groups of alternatives (ALT_BEGIN, ALT, ALT_END), with comments anywhere, is accepted, and the ways through its token graph spell exactly the readings of the file: all words in order with one alternative of every group, with times and confidences of the lines.", "quantifier": "All files of well-formed lines with any number of words, groups and alternatives, where no alternative starts before the first one of its group, and every conversion of times.", "why_tests_cant": "The readings multiply with the groups; tests compare a few files.", "anchors": ["src/asclite/core/ctm_inputparser.cpp:loadFile", "src/asclite/core/segment.cpp:AddFirstToken", "src/asclite/core/token.h:AddNextToken"]}
{"id": "C97", "title": "The segments of a CTM file", "statement": "Every word and every group of a CTM file becomes one segment, in the order of the file, with file, channel, start and latest end, and with the first and last tokens of all its alternatives.", "quantifier": "All well-formed files.", "why_tests_cant": "A missing last token of one alternative only shows when this alternative is the best match.", "anchors": ["src/asclite/core/ctm_inputparser.cpp:loadFile", "src/asclite/core/segment.cpp:AddLastToken"]}
{"id": "C98", "title": "Every word of a CTM file is one token", "statement": "The tokens of a loaded CTM file are the words of its lines, each exactly once and in the order of the file.", "quantifier": "All well-formed files.", "why_tests_cant": "Losing or doubling a word in some state of the parser needs the right sequence of tags before it.", "anchors": ["src/asclite/core/ctm_inputparser.cpp:loadFile", "src/asclite/core/inputparser.cpp:BuildToken"]}
{"id": "C99", "title": "The token graph of any CTM file leads forward", "statement": "Whatever the lines of a CTM file are, when it is accepted the links of its tokens agree in both directions, lead only forward in the order of the file (so there are no cycles), and the last tokens of segments exist.", "quantifier": "All sequences of lines, including stray and unbalanced tags.", "why_tests_cant": "Unbalanced tags can stand anywhere; traversals loop forever on a cyclic graph.", "anchors": ["src/asclite/core/ctm_inputparser.cpp:loadFile"]}
{"id": "C100", "title": "Comments of a CTM file have no effect", "statement": "A line that starts with a semicolon can be inserted into or removed from a CTM file anywhere, also inside of groups and malformed parts, without any effect.", "quantifier": "All files and all places.", "why_tests_cant": "The places of comments relative to the state of the parser are unlimited.", "anchors": ["src/asclite/core/ctm_inputparser.cpp:loadFile"]}
{"id": "C101", "title": "Lines of a CTM file without fields", "statement": "A blank line acts exactly like a repetition of the line before it (so the word before it is scored twice); a blank first line uses uninitialised memory, and so does a field of 255 bytes or more overrun its buffer.", "quantifier": "All files, places of the blank line, and kinds of white space.", "why_tests_cant": "Shown for all files; a test shows single outputs, and the uninitialised case may pass by luck.", "anchors": ["src/asclite/core/ctm_inputparser.cpp:loadFile"]}
{"id": "C102", "title": "Lines of an STM file are read as they are written", "statement": "A line `file channel speaker start end [<label>] transcript` of an STM file gives the segment with exactly these parts: names, times, label and transcript; the transcript with the exclusion mark (in any case) makes an excluded segment, and the gap speaker's name is recognised in any case.", "quantifier": "All texts of fields, labels and transcripts, all kinds of white space, every conversion of times.", "why_tests_cant": "The transcript is found by searching for the texts of the times in the line; which texts are safe is a statement about all texts.", "anchors": ["src/asclite/core/stm_inputparser.cpp:loadFile", "src/asclite/core/stm_inputparser.cpp:CompareToISGCaseInsensitive"]}
{"id": "C103", "title": "The segments of an STM file by speaker", "statement": "An STM file is read into one speech for each speaker, ordered by name; each speech has exactly the segments of its speaker in the order of the file, with line numbers and element numbers that count the scored segments.", "quantifier": "All files of well-written lines with comments anywhere.", "why_tests_cant": "Any number and mixture of speakers, excluded segments and comments.", "anchors": ["src/asclite/core/stm_inputparser.cpp:loadFile"]}
{"id": "C104", "title": "Identifiers of scored STM segments are unique", "statement": "No two scored segments of an STM file have the same identifier, whatever the speakers' names are; the numbers count the scored segments of a speaker from zero. An excluded segment has the identifier of the scored segment before it.", "quantifier": "All files of well-written lines (fewer segments than size_t holds).", "why_tests_cant": "Names may contain digits and dashes and numbers may exceed the padded width; uniqueness is a statement about all pairs.", "anchors": ["src/asclite/core/stm_inputparser.cpp:loadFile"]}
{"id": "C105", "title": "Segments of one speaker form one chain", "statement": "In the speech of each speaker exactly those segments are linked between which there are only segments without tokens.", "quantifier": "All sequences of empty and non-empty segments.", "why_tests_cant": "Runs of empty segments can have any length and place.", "anchors": ["src/asclite/core/stm_inputparser.cpp:loadFile", "src/asclite/core/stm_inputparser.cpp:Attach"]}
{"id": "C106", "title": "Categories and labels of an STM file", "statement": "The category and label entries of an STM file are those of its `;; CATEGORY \"id\" \"title\" \"description\"` and `;; LABEL ...` comments, with these texts, in order; other comments have no effect.", "quantifier": "All files.", "why_tests_cant": "The texts may have any number of words; the position counters of the parser depend on all words before.", "anchors": ["src/asclite/core/stm_inputparser.cpp:loadFile", "src/asclite/core/speechset.cpp:AddLabelCategory"]}
{"id": "C107", "title": "TRN files are read as they are written", "statement": "A TRN file of lines `transcript (identifier)` is read into one speech for each speaker (the identifier up to its last _ or -), ordered by name, with the utterances in the order of the file, their identifiers, transcripts and numbers.", "quantifier": "All files of such lines, with parentheses allowed in transcripts, and comments anywhere.", "why_tests_cant": "All texts and any number of speakers and lines.", "anchors": ["src/asclite/core/trn_inputparser.cpp:loadFile"]}
{"id": "C108", "title": "Cutting a channel into chunks keeps every word", "statement": "When two time-marked (CTM) files are aligned, a channel is cut into chunks that are aligned one by one. The cutting always ends; unless the reference file begins with an alternation, every word of the channel in the reference and in the hypothesis is in exactly one chunk, in order, and no chunk is empty.", "quantifier": "All words, times and flags, all lengths of the two sides.", "why_tests_cant": "Any number of words with any times; termination of nested searches.", "anchors": ["src/sclite/ctm2ctm.c:chop_WTOKE_2", "src/sclite/ctm2ctm.c:align_ctm_to_ctm"]}
{"id": "C109", "title": "Chunks do not split alternations", "statement": "A chunk never ends within an alternation (<ALT_BEGIN> ... <ALT_END>).", "quantifier": "All references made of words and alternations, all hypotheses.", "why_tests_cant": "All positions of alternations relative to the cuts.", "anchors": ["src/sclite/ctm2ctm.c:chop_WTOKE_2"]}
{"id": "C110", "title": "Chunks end in silences common to both files", "statement": "In files whose words do not overlap, all words up to the end of a chunk, in both files, are over when any later word of either file begins.", "quantifier": "All pairs of channels with words in the order of their times.", "why_tests_cant": "All times, all numbers of words.", "anchors": ["src/sclite/ctm2ctm.c:chop_WTOKE_2"]}
{"id": "C111", "title": "Chunks are scored under their own file and channel", "statement": "Each chunk is reported under the file and channel that its words are from.", "quantifier": "All channels and chunks.", "why_tests_cant": "All lengths of the two sides, all keys.", "anchors": ["src/sclite/ctm2ctm.c:align_ctm_to_ctm"]}
{"id": "C112", "title": "Aligning two CTM files scores all words", "statement": "If the two files have the same files and channels in the same order, each word of both is scored exactly once, in order; the program always ends.", "quantifier": "All CTM files.", "why_tests_cant": "Any number of files, channels and words.", "anchors": ["src/sclite/ctm2ctm.c:align_ctm_to_ctm", "src/sclite/fillmrks.c:locate_boundary"]}
{"id": "C113", "title": "Networks of time-marked words have exactly the readings of the lines", "statement": "The word network made from the lines of a CTM file can be read as exactly the sequences that take every word not to be ignored and one alternative of each alternation (<ALT_BEGIN> ... <ALT> ... <ALT_END>), in the order of the file, with their times and confidences; an empty alternative is read as the null word. Lines outside of the given range make no difference; the network is acyclic and has at most one arc for each line.", "quantifier": "All lists of words and alternations.", "why_tests_cant": "Any number of words, alternations, alternatives.", "anchors": ["src/sclite/net_adt.c:Network_create_from_WTOKE", "src/sclite/net_adt.c:Network_add_net_to_tail", "src/sclite/net_adt.c:Network_merge_network"]}
{"id": "C114", "title": "Right-to-left networks have the reversed readings", "statement": "Made from right to left, the network has the same readings with the words in reverse order.", "quantifier": "All lists of words and alternations.", "why_tests_cant": "Any number of words, alternations, alternatives.", "anchors": ["src/sclite/net_adt.c:Network_create_from_WTOKE", "src/sclite/net_adt.c:Network_add_net_to_head"]}
{"id": "C115", "title": "Time-marked word lists are aligned at the lowest cost", "statement": "Two time-marked word lists, both possibly with alternations, are aligned at the lowest total of the standard word costs over all readings of the one and all readings of the other; the path reported belongs to a reading of each; the total is the same from left to right and from right to left.", "quantifier": "All pairs of lists, both directions, all earlier contents of the tables.", "why_tests_cant": "The number of pairs of readings is exponential in the number of alternations.", "anchors": ["src/sclite/net_adt.c:Network_create_from_WTOKE", "src/sclite/net_dp.c:Network_dpalign"]}
{"id": "C116", "title": "Making a network of time-marked words ends", "statement": "The construction of a network from time-marked words ends, wherever alternation marks are placed.", "quantifier": "All lists of lines, with marks in any order, all ranges.", "why_tests_cant": "All placements of marks.", "anchors": ["src/sclite/net_adt.c:Network_create_from_WTOKE"]}
{"id": "C117", "title": "RTTM words become segments, one for each scored LEXEME line", "statement": "With one word per segment, an RTTM file is read into one speech per speaker, ordered by name, with one segment for each LEXEME line of a lexical kind (lex, fp, frag, un-lex, for-lex, alpha, acronym, interjection, propernoun, in either case), in the order of the file, with the line's file, channel, times and word, marked as optional for fp, frag, un-lex and for-lex. Other lines make no difference. A word with a quote, and a file without words, is refused.", "quantifier": "All RTTM files whose LEXEME lines have at least nine fields of fewer than 255 bytes.", "why_tests_cant": "Any number of lines, speakers, kinds, spellings of the kinds.", "anchors": ["src/asclite/core/rttm_inputparser.cpp:loadFileLexeme"]}
{"id": "C118", "title": "RTTM words have the confidence of their line", "statement": "Each word read from an RTTM file has the confidence of its line, and none exactly if the line has <NA>.", "quantifier": "All RTTM files, all lines.", "why_tests_cant": "All orders of words with and without confidence.", "anchors": ["src/asclite/core/rttm_inputparser.cpp:loadFileLexeme"]}
{"id": "C119", "title": "RTTM segments have unique identifiers and right numbers", "statement": "The segments of each speaker are numbered from 0 on in the order of the file; no two segments of the file have the same identifier; the element number of a segment of one word is the position of the word among all words of the file.", "quantifier": "All RTTM files, in both modes.", "why_tests_cant": "Any number of speakers and segments, names with dashes and digits.", "anchors": ["src/asclite/core/rttm_inputparser.cpp:loadFileLexeme", "src/asclite/core/rttm_inputparser.cpp:loadFileSpeaker"]}
{"id": "C120", "title": "RTTM turns collect the words of their speaker", "statement": "With segments of several words, each SPEAKER line gives a segment of its speaker with the line's file, channel and times, whose words are those of the LEXEME lines of the speaker up to the speaker's next SPEAKER line, in order, with times and confidences, in parentheses if optional; other words are dropped. The file is refused exactly if the first word of a segment begins before it or its last word ends after it.", "quantifier": "All RTTM files whose SPEAKER and LEXEME lines are complete.", "why_tests_cant": "All ways to interleave turns and words of any number of speakers.", "anchors": ["src/asclite/core/rttm_inputparser.cpp:loadFileSpeaker", "src/asclite/core/segment.cpp:AddFirstToken", "src/asclite/core/segment.cpp:AddLastToken"]}
{"id": "C121", "title": "RTTM words are in segments that contain them", "statement": "In an RTTM file that is accepted, each word is in a segment of its own file and channel, and within the segment's times.", "quantifier": "All RTTM files that are accepted with segments of several words.", "why_tests_cant": "All times, files, channels and orders of lines.", "anchors": ["src/asclite/core/rttm_inputparser.cpp:loadFileSpeaker", "src/asclite/core/segment.cpp:AddFirstToken", "src/asclite/core/segment.cpp:AddLastToken"]}
{"id": "C122", "title": "The words of an RTTM speaker form one chain", "statement": "The tokens of each speaker form one chain in the order of segments and of words in them: exactly neighbours are linked, whatever segments are empty.", "quantifier": "All speeches, all segments, in both modes.", "why_tests_cant": "All positions and numbers of empty segments.", "anchors": ["src/asclite/core/rttm_inputparser.cpp:loadFileSpeaker", "src/asclite/core/rttm_inputparser.cpp:Attach", "src/asclite/core/rttm_inputparser.cpp:loadFileLexeme"]}
{"id": "C123", "title": "Expansion into characters keeps the readings of a network", "statement": "With option -c, every word of a word network is replaced by its characters in order: the new network can be read as exactly the readings of the old one with each word spelled out, alternatives included; no word can be expanded further, and the network can be traversed again.", "quantifier": "All networks, whatever their size and branching.", "why_tests_cant": "The network is rewritten while it is being traversed; any number of branches, any lengths of words.", "anchors": ["src/sclite/align.c:expand_words_to_chars", "src/sclite/net_adt.c:Network_traverse", "src/sclite/net_adt.c:Network_merge_network", "src/sclite/net_adt.c:Network_delete_arc"]}
{"id": "C124", "title": "Expansion into characters ends", "statement": "The expansion of a network into characters comes to an end.", "quantifier": "All networks of words that can be spelled.", "why_tests_cant": "Termination; a test that runs out of time shows nothing.", "anchors": ["src/sclite/align.c:expand_words_to_chars", "src/sclite/net_adt.c:Network_traverse"]}
{"id": "C125", "title": "Characters share the time of their word", "statement": "The characters of a word have equal durations that add up to that of the word; the first starts with the word, each starts where the one before ends, and the last ends with the word; each has the confidence of the word and is optionally deletable if the word is.", "quantifier": "All words and encodings, all times.", "why_tests_cant": "Any number of characters, any times.", "anchors": ["src/sclite/align.c:expand_words_to_chars", "src/sclite/align.c:set_word_duration", "src/sclite/align.c:set_word_start", "src/sclite/align.c:set_word_conf", "src/sclite/align.c:set_word_opt_del"]}
{"id": "C126", "title": "Character alignment has the lowest cost", "statement": "The alignment of two texts by characters has the lowest total of the standard costs over all readings of the one and all readings of the other, each spelled out in characters; the reported path belongs to one reading of each.", "quantifier": "All pairs of texts with alternatives.", "why_tests_cant": "Quantifies over all readings and all alignments.", "anchors": ["src/sclite/align.c:network_dp_align_texts", "src/sclite/align.c:expand_words_to_chars", "src/sclite/net_dp.c:Network_dpalign"]}
{"id": "C127", "title": "Optionally deletable words and fragments are recognised by their spelling", "statement": "With option -D exactly the words enclosed in parentheses are optionally deletable, and their text is what is inside. With option -F exactly the words that begin or end with a hyphen are fragments, the parentheses of an optionally deletable word not counted.", "quantifier": "All words.", "why_tests_cant": "All texts of words.", "anchors": ["src/sclite/align.c:decode_opt_del", "src/sclite/align.c:decode_fragment"]}
{"id": "C128", "title": "Words with alternatives in RTTM files are read as their notation says", "statement": "After an RTTM file is read, the word sequences on the paths from the beginning of a segment to the end of a segment are the concatenations of what its words stand for, where a word with alternatives (blanks written as _ or #) stands for the word sequences its notation denotes, the empty one included.", "quantifier": "All files, all words, any number and nesting of alternatives.", "why_tests_cant": "Quantifies over all paths through a graph that is rewritten word by word; nesting and number of words are unbounded.", "anchors": ["src/asclite/core/linestyle_inputparser.cpp:ExpandAlternationSpeechSet", "src/asclite/core/segment.cpp:ReplaceTokenWith", "src/asclite/core/linestyle_inputparser.cpp:ReplaceChar"]}
{"id": "C129", "title": "Tokens made from a word with alternatives take after the word", "statement": "After an RTTM file is read no word with alternatives is left on any path; words without alternatives keep text, times and confidence; every new token lies within the times of the word it was made from and is optionally deletable if that word was; segments keep their times.", "quantifier": "All files, all words.", "why_tests_cant": "All numbers of words and alternatives, all times.", "anchors": ["src/asclite/core/linestyle_inputparser.cpp:ExpandAlternationSpeechSet", "src/asclite/core/linestyle_inputparser.cpp:BuildToken", "src/asclite/core/segment.cpp:ReplaceTokenWith"]}
{"id": "C130", "title": "The expansion of words with alternatives ends", "statement": "The expansion of the words with alternatives in an RTTM file comes to an end and does not exit with an error.", "quantifier": "All files whose words have times.", "why_tests_cant": "Termination, for texts of any length and nesting.", "anchors": ["src/asclite/core/linestyle_inputparser.cpp:ExpandAlternationSpeechSet", "src/asclite/core/linestyle_inputparser.cpp:ParseWords", "src/asclite/core/segment.cpp:AddFirstToken"]}
{"id": "C131", "title": "Replacing a token by a graph is substitution", "statement": "When a token of a segment is replaced by a graph of tokens, the paths of the segment are exactly the old ones with each passage through the token replaced by a complete path through the graph.", "quantifier": "All graphs of tokens, with any branching, and all graphs that replace a token.", "why_tests_cant": "Quantifies over all graphs and all their paths.", "anchors": ["src/asclite/core/segment.cpp:ReplaceTokenWith", "src/asclite/core/token.cpp:LinkTokens", "src/asclite/core/token.cpp:UnlinkTokens"]}
{"id": "C132", "title": "Every pair of an alignment is kept once", "statement": "After the alignments of all systems have been collected, each system has exactly the pairs of its own alignments, each once: every reference word under its own segment, every superfluous word under one segment. The other systems make no difference.", "quantifier": "All numbers of systems, groups of segments and columns; all titles.", "why_tests_cant": "Any number of systems sharing one store, any number of columns; the store is looked up by pointers and titles.", "anchors": ["src/asclite/core/alignment.cpp:AddGraphAlignedSegment", "src/asclite/core/alignedsegment.cpp:AddTokenAlignment", "src/asclite/core/tokenalignment.cpp:AddAlignmentFor", "src/asclite/core/recording.cpp:AlignHypRef"]}
{"id": "C133", "title": "A superfluous word is counted under a segment it overlaps", "statement": "A superfluous word with times is counted under the segment of the reference word before it if it overlaps that, else of the one after it if it overlaps that, else under the first reference segment of the group it overlaps; the program stops only if there is none. A word without times is counted under the segment of the reference word before it, else after it. The search always ends.", "quantifier": "All words, all alignments, all groups of segments.", "why_tests_cant": "Termination of a loop with several ways through it, for all times.", "anchors": ["src/asclite/core/alignment.cpp:AddGraphAlignedSegment", "src/asclite/core/alignment.cpp:LookRight", "src/asclite/core/segmentsgroup.cpp:GetRefSegmentByTime", "src/asclite/core/timedobject.cpp:OverlapWith"]}
{"id": "C134", "title": "Several systems can be scored in one run", "statement": "When several systems are given, each is scored; the scoring does not fail because of what the others said.", "quantifier": "All numbers of systems, all alignments.", "why_tests_cant": "Quantifies over all combinations of systems.", "anchors": ["src/asclite/core/stt_scorer.cpp:Score", "src/asclite/core/tokenalignment.cpp:GetResultFor", "src/asclite/core/alignment.cpp:AddGraphAlignedSegment"]}
{"id": "C135", "title": "The report counts each pair of the alignments once", "statement": "In the report on a system the numbers of correct words, substitutions, speaker errors, deletions and insertions of a speaker are the numbers of pairs with that verdict in the alignments of the aligned groups, counted under the speaker of the segment the pair belongs to.", "quantifier": "All alignments, all speakers.", "why_tests_cant": "Relates the totals to all pairs of all groups through the store.", "anchors": ["src/asclite/core/alignment.cpp:AddGraphAlignedSegment", "src/asclite/core/stt_scorer.cpp:Score", "src/asclite/core/rawsys_reportgenerator.cpp:GenerateSystem"]}
{"id": "C136", "title": "The report counts each reference segment of the aligned groups once", "statement": "The number of segments in the report of a speaker is the number of this speaker's reference segments in the aligned groups, those without words included.", "quantifier": "All groups of segments.", "why_tests_cant": "Any number of groups and segments, with and without words.", "anchors": ["src/asclite/core/alignment.cpp:AddGraphAlignedSegment", "src/asclite/core/alignedspeech.cpp:GetOrCreateAlignedSegmentFor", "src/asclite/core/rawsys_reportgenerator.cpp:GenerateSystem"]}
{"id": "C137", "title": "A group is aligned exactly when it is within the limits", "statement": "A group of segments is aligned if and only if it is not marked to be ignored, is the one wanted if one is wanted, the number of reference speakers and the size of the table are within the limits set, and the table fits into the memory allowed or compression is allowed. The compressed table is used if and only if it is forced or the plain one does not fit.", "quantifier": "All settings, all groups.", "why_tests_cant": "All sizes, also those near the bounds of the machine's numbers.", "anchors": ["src/asclite/core/recording.cpp:AlignHypRef", "src/asclite/core/segmentsgroup.cpp:GetDifficultyNumber"]}
{"id": "C138", "title": "Inferred segmentations contain only units and lexicon words with the same spelling", "statement": "When word segmentations are inferred (option -S), the network of units is kept and only extended: whatever can be read afterwards is a reading of the original network in which some runs of consecutive units are replaced by one word each, spelled like the run and contained in the lexicon. The text as a whole is not changed.", "quantifier": "All networks of units, with any alternatives, and all sorted lexicons.", "why_tests_cant": "The number of segmentations is exponential in the length of the text.", "anchors": ["src/sclite/align.c:infer_word_seg_algo1", "src/sclite/align.c:infer_word_seg_algo2", "src/sclite/net_adt.c:Network_fully_connect_cond", "src/sclite/net_adt.c:recursive_connect", "src/sclite/text.c:WORD_in_TEXT_LIST"]}
{"id": "C139", "title": "All segmentations into lexicon words are considered", "statement": "Every way to replace runs of consecutive units by words of the lexicon with the same spelling can be read from the network after segmentations were inferred, however long the words and whatever their prefixes.", "quantifier": "All networks of units, all sorted lexicons, all segmentations.", "why_tests_cant": "Exponentially many segmentations for texts of any length; overlapping lexicon words; prefixes that are no words.", "anchors": ["src/sclite/net_adt.c:Network_fully_connect_cond", "src/sclite/net_adt.c:recursive_connect", "src/sclite/align.c:infer_word_seg_algo1"]}
{"id": "C140", "title": "The alignment with inferred segmentation is the best over all segmentations", "statement": "The cost of the alignment with option -S is the lowest total of the standard costs over all readings of the one text and all segmentations of all readings of the other; the reported path belongs to one such pair.", "quantifier": "All texts with alternatives on both sides, all sorted lexicons, either side segmented.", "why_tests_cant": "Minimum over two exponentially large sets.", "anchors": ["src/sclite/align.c:infer_word_seg_algo1", "src/sclite/align.c:infer_word_seg_algo2", "src/sclite/net_dp.c:Network_dpalign"]}
{"id": "C141", "title": "A joined word has the text, times and confidence of its parts", "statement": "When words are joined, the texts are concatenated without null words, the new word extends from the start of the first to the end of the last, it is optionally deletable or a fragment if and only if all parts are, and its confidence is the mean of those of its parts.", "quantifier": "All sequences of two or more words.", "why_tests_cant": "Any number of parts, null words anywhere, all combinations of attributes.", "anchors": ["src/sclite/word.c:append_WORD_no_NULL"]}
{"id": "C142", "title": "The lexicon is the first fields of the lines of its file", "statement": "The lexicon that is loaded consists of the first field of every line of the file, in that order; a word is found in it exactly if it is there; the longest word considered is the longest of the lexicon in characters.", "quantifier": "All files in all character encodings, lines of any length.", "why_tests_cant": "Any number of lines of any length; binary search.", "anchors": ["src/sclite/text.c:load_TEXT_LIST", "src/sclite/text.c:in_TEXT_LIST", "src/sclite/text.c:TEXT_chrlen", "src/sclite/align.c:infer_word_seg_algo1"]}
{"id": "C143", "title": "Time-mediated alignment maximises overlap", "statement": "With time-mediated alignment (sclite -T), two word sequences without null words are aligned so that twice the summed time overlap of the paired words, less one millisecond for every pair of different words, is as large as any alignment can make it.", "quantifier": "all reference and hypothesis word sequences with times (no null words; durations and lengths below the built-in cost limit), all tests for equality", "why_tests_cant": "The number of alignments of two sequences is exponential and times range over an unbounded set; a test compares a few hand-made segments.", "anchors": ["src/sclite/word.c:wwd_time_WORD", "src/sclite/net_dp.c:dpalign"]}
{"id": "C144", "title": "Words apart in time are not paired", "statement": "Time-mediated alignment pairs two words that are not null words only if their times overlap, or if they touch and the words are equal; words with a gap between them are reported as deletion and insertion. A null word, however, can be paired with a word of similar times and is then reported as a substitution.", "quantifier": "all pairs of networks (any shape) with times below the limits, all tests for equality", "why_tests_cant": "Follows from optimality over all paths of all networks; a test sees single alignments.", "anchors": ["src/sclite/word.c:wwd_time_WORD", "src/sclite/net_dp.c:dpalign"]}
{"id": "C145", "title": "Word weight lists", "statement": "After loading a word weight file, a word has the weight of one of its lines, a word without a line the weight named by the last default comment (0 without one); a compound word with equals signs has the sum of the weights of its parts; null words and optionally deletable words weigh nothing; the list 'unity' gives every word 1; a word line without a weight makes loading fail.", "quantifier": "all weight files (any lines), all words in all encodings", "why_tests_cant": "The search is binary over lists of any size and order of lines; tests use one file.", "anchors": ["src/sclite/wwscr_f.c:load_WWL", "src/sclite/wwscr_f.c:Weight_wwl", "src/sclite/wwscr_f.c:get_weight_from_WW", "src/sclite/align.c:lookup_word_weight"]}
{"id": "C146", "title": "Weighted alignment minimises weighted errors", "statement": "Word-weight-mediated alignment (sclite -w) produces a path whose weights of substituted (both words), inserted and deleted words, as added to the scores, sum up to the least any alignment could be reported with (up to 0.001 for each null word left alone by the other alignment).", "quantifier": "all pairs of networks, all weights below the limits", "why_tests_cant": "Minimality is over all paths and alignments.", "anchors": ["src/sclite/word.c:wwd_weight_WORD", "src/sclite/scores.c:add_PATH_score", "src/sclite/net_dp.c:dpalign"]}
{"id": "C147", "title": "Synchronisation tags are aligned with their like", "statement": "When rover aligns networks without times, a word that contains the tag %sync%time is only ever paired with a word of exactly the same text.", "quantifier": "all pairs of networks with fewer than 3333 arcs together, all texts", "why_tests_cant": "A claim about the optimum over all alignments of all networks.", "anchors": ["src/sclite/word.c:wwd_WORD_rover", "src/sclite/rover.c:wwd_WORD_rover"]}
{"id": "C148", "title": "The lists of confused, inserted, deleted and substituted words count every occurrence", "statement": "In the detailed reports each of the five lists (confusion pairs, insertions, deletions, substitutions, falsely recognized) has exactly one line for every distinct word or pair that occurs, with the number of its occurrences; the most frequent come first and equally frequent ones in the order of the texts; the headings give the number of lines and the number at the end is the number of occurrences. The output does not depend on how the C library's sort treats equal counts, and a printed pair tells its two words if they contain no blank.", "quantifier": "all lists of words of any length in any encoding, all results of sorting by count", "why_tests_cant": "The numbers pass through an index array, a growing table and two sorts; only a claim over all lists and all sort results covers the ties.", "anchors": ["src/sclite/alex.c:AUTO_LEX_insert", "src/sclite/alex.c:AUTO_LEX_printout", "src/sclite/sc_dtl.c:locate_confusion_pairs", "src/sclite/sc_dtl.c:locate_insertions"]}
{"id": "C149", "title": "The numbers of the detailed reports are those of the alignments", "statement": "The overall report gives the numbers of sentences, of sentences with errors, substitutions, deletions and insertions, of correct, substituted, deleted and inserted words and of reference, hypothesis and aligned words over all utterances of the system, and the lists of words of exactly those utterances; a speaker's report does so for the utterances of that speaker.", "quantifier": "all lists of utterances of all speakers in any order, all alignments whose substituted pairs have fewer than 9995 bytes together", "why_tests_cant": "The totals are accumulated in groups while scoring; tests see a few utterances in one order.", "anchors": ["src/sclite/sc_dtl.c:score_dtl_overall", "src/sclite/sc_dtl.c:score_dtl_spkr", "src/sclite/rsprintf.c:rsprintf"]}
{"id": "C150", "title": "Percentages are rounded to the nearest tenth and not given without reference words", "statement": "Each percentage of the detailed report is within half a tenth of the exact quotient by the number of reference words, also the word accuracy when it is negative; without reference words UNDEF is printed; the printed error and the printed accuracy add up to 100.0.", "quantifier": "all numbers of errors and of reference words", "why_tests_cant": "Ties and negative values are a few in infinitely many quotients.", "anchors": ["src/sclite/sc_dtl.c:score_dtl_overall", "src/sclite/sctk.h:F_ROUND"]}
{"id": "C151", "title": "The list of words that no system recognised counts every word", "statement": "The list of reference words that none of the compared systems got right has one line for each such word with the number of its occurrences.", "quantifier": "all sequences of missed words", "why_tests_cant": "The error depends on the order in which words occur first compared with the order of texts.", "anchors": ["src/sclite/corresp.c:lattice_error", "src/sclite/alex.c:AUTO_LEX_find"]}
{"id": "C152", "title": "The report by labels counts every labelled utterance once for each label", "statement": "In the labelled utterance report the words and errors of a speaker under a label are those of exactly that speaker's utterances with the label, whatever labels are combined; a label that was not defined, or one that is used in two categories, ends the program with a message.", "quantifier": "all lists of utterances of all speakers, all lists of labels (each below 30 bytes), all alignments", "why_tests_cant": "The text of the labels is scanned by hand with a position counter; combinations of labels and empty fields are unlimited.", "anchors": ["src/sclite/lur.c:compute_label_scores"]}
{"id": "C153", "title": "The sums and averages of the report by labels", "statement": "In the labelled report every speaker's cell has the percentage of errors nearest to the exact one (or the number of errors if there are no reference words, or nothing), the totals are those of all utterances with the label, and averages are taken over the speakers with reference words; the report on several systems agrees with the reports on each.", "quantifier": "all tables of numbers, all numbers of labels and speakers", "why_tests_cant": "Speakers without reference words are the exceptional case in one of two separately written functions.", "anchors": ["src/sclite/lur.c:create_report", "src/sclite/lur.c:create_N_lur_report", "src/sclite/lur.c:print_lur", "src/sclite/lur.c:print_N_lur"]}
{"id": "C154", "title": "Definitions of labels and categories", "statement": "After reading a file of comment lines, the labels and categories are exactly those defined by lines of the form ;; LABEL \"id\" \"title\" \"description\" (or CATEGORY), in order, each once; other lines and incomplete definitions have no effect, and no number of definitions overflows the tables.", "quantifier": "all sequences of lines", "why_tests_cant": "Any number of lines, each split by hand at quotes; growing arrays.", "anchors": ["src/sclite/scores.c:parse_input_comment_line", "src/sclite/scores.c:load_comment_labels_from_file"]}
{"id": "C155", "title": "Every point of the trade-off curve belongs to a threshold", "statement": "Each point of the DET curve of a system gives, for some threshold on the confidence, the fraction of correct words below it and of wrong words not below it; misses grow and false alarms fall along the curve, and there is a point for every word.", "quantifier": "all alignments with confidences, any numbers of correct and wrong words", "why_tests_cant": "Two sorted arrays of any length are merged with sentinels; the claim is about every intermediate point.", "anchors": ["src/sclite/det.c:Compute_ROC", "src/sclite/det.c:make_SCORES_DET_curve"]}
{"id": "C156", "title": "Plotting several systems gives the curves of each", "statement": "When several systems are plotted together, each system's DET curve is the one it has alone.", "quantifier": "all sequences of systems", "why_tests_cant": "Depends on what is carried over from one system to the next.", "anchors": ["src/sclite/det.c:make_SCORES_DET_curve"]}
{"id": "C157", "title": "Histograms of confidences count every word in its bin", "statement": "In the confidence histograms the numbers of a bin are those of the correct and of the wrong hypothesis words whose confidence is in the bin's range (1 belongs to the last bin); words out of the range from 0 to 1 are counted apart; no word is lost; the percentage is that of the correct words in the bin.", "quantifier": "all alignments, all numbers of bins, all confidences", "why_tests_cant": "Boundaries between bins are a null set that tests hit by chance only.", "anchors": ["src/sclite/det.c:binned_confidences", "src/sclite/det.c:make_confidence_histogram", "src/sclite/det.c:make_binned_confidence"]}
{"id": "C158", "title": "Scaled histograms divide the words evenly", "statement": "The scaled histogram divides the words, sorted by confidence, into the requested number of bins of equally many words but for the last, every word in exactly one, and each bin gives its percentage of correct words and the range of its confidences.", "quantifier": "all alignments, all numbers of words and bins, all results of sorting", "why_tests_cant": "The remainder of the division is put into the last bin for some numbers of words and makes further bins for others.", "anchors": ["src/sclite/det.c:make_scaled_binned_confidence"]}
{"id": "C159", "title": "Long time-marked files are read completely through a table of limited size", "statement": "Reading a time-marked file piece by piece hands every record of the file to the program once and in order, and never splits the words of a recording between two portions, whatever the size of the table and the length of the file.", "quantifier": "all table sizes of at least four entries, all files (sequences of well-formed lines and comments), all divisions into recordings", "why_tests_cant": "The shipped size is 5000 words; only files that end, or change the recording, at every possible offset to it would settle it.", "anchors": ["src/sclite/fillmrks.c:fill_mark_struct", "src/sclite/fillmrks.c:fill_WTOKE_structure", "src/sclite/fillmrks.c:locate_WTOKE_boundary"]}
{"id": "C160", "title": "Aligning time-marked files in portions is aligning them whole", "statement": "Aligning a time-marked hypothesis with reference segments, both read piece by piece, gives the same assignment of words to segments, or the same error, as if both files were read at once; the sizes of the tables do not matter.", "quantifier": "all reference and hypothesis files, all table sizes", "why_tests_cant": "Depends on where the ends of recordings and channels fall in two tables that are refilled independently.", "anchors": ["src/sclite/stm2ctm.c:align_ctm_to_stm_dp", "src/sclite/stm.c:fill_STM_structure", "src/sclite/stm.c:fill_STM", "src/sclite/fillmrks.c:fill_WTOKE_structure"]}
{"id": "C161", "title": "Fields of time-marked lines", "statement": "Each line of a time-marked file that is not a comment is stored as the word with the recording, channel, begin (with the mark && for bad times), duration, text, confidence (unless absent or NA) and correctness given by its fields in order; a line that lacks one of the first five is reported.", "quantifier": "all lines in all encodings", "why_tests_cant": "Lines are arbitrary byte sequences in four encodings with any spacing.", "anchors": ["src/sclite/fillmrks.c:fill_mark_struct"]}
{"id": "C162", "title": "Fields of reference segments", "statement": "Each line of a segment time-marked reference is stored with its file, channel, speaker and times, the label set if the sixth field is one, and a text whose words are the remaining fields; comments and blank lines have no effect; incomplete lines are reported.", "quantifier": "all lines in all encodings", "why_tests_cant": "Lines are arbitrary byte sequences; the line is tokenised in place and then partly restored.", "anchors": ["src/sclite/stm.c:parse_stm_line", "src/sclite/stm.c:read_stm_line"]}
{"id": "C163", "title": "Alignments from diff are complete and divided among the references", "statement": "When a text is aligned with reference segments by way of diff, the alignments of the segments are diff's edit script cut into consecutive pieces: every word of reference and hypothesis occurs once, with diff's pairing, and each piece has exactly the words of its segment.", "quantifier": "all references and hypotheses, all edit scripts that diff may find", "why_tests_cant": "diff's choice and the positions of insertions relative to segment boundaries are arbitrary.", "anchors": ["src/sclite/align.c:align_text_to_stm", "src/sclite/align.c:process_diff_line"]}
{"id": "C164", "title": "Alignments from diff of transcripts with identifiers", "statement": "When transcripts are aligned by way of diff, each hypothesis is aligned with the reference of its identifier, and the alignments together are diff's edit script.", "quantifier": "all references, all selections and orders of hypotheses, all edit scripts", "why_tests_cant": "As for segments; in addition the order of hypotheses is arbitrary.", "anchors": ["src/sclite/align.c:align_trans_mode_diff", "src/sclite/align.c:create_word_lists", "src/sclite/align.c:process_diff_line"]}
{"id": "C165", "title": "Alignments from diff of time-marked files lose no words", "statement": "When a time-marked hypothesis is aligned with segments by way of diff, each channel's alignments together are diff's edit script of that channel; no hypothesis word is dropped.", "quantifier": "all segments, channels and edit scripts", "why_tests_cant": "Whether the last segment is recognised depends on the position of the channel in the table.", "anchors": ["src/sclite/align.c:align_ctm_to_stm_diff", "src/sclite/stm.c:dump_STM_words"]}
{"id": "C166", "title": "Reference texts of any length are written to the files for diff", "statement": "Writing the words of the references for diff works for texts of any length.", "quantifier": "all sequences of text lengths", "why_tests_cant": "The buffer is enlarged depending on the lengths seen before; only particular lengths show an error.", "anchors": ["src/sclite/align.c:create_word_lists", "src/sclite/stm.c:dump_STM_words"]}
{"id": "C167", "title": "Reducing the reference keeps the segments the hypothesis covers", "statement": "With -m ref, the reference segments left out of scoring are those that lie before all hypothesis words of the channel or after all of them, and no others; the remaining segments keep their order.", "quantifier": "all time-marked hypotheses of a channel and all segment lists", "why_tests_cant": "The choice depends on the times of arbitrary words and on alternations at the ends; tests use a few files.", "anchors": ["src/sclite/stm2ctm.c:align_one_channel"]}
{"id": "C168", "title": "Reducing the hypothesis scores the covered words only", "statement": "With -m hyp, the hypothesis is scored as if the words and alternations none of whose words is within the time span of the kept segments were not there; an alternation stays or goes as a whole, and words after it are not affected.", "quantifier": "all hypothesis word lists with alternations, all segments, all parts of the channel", "why_tests_cant": "The effect depends on the interplay of flags set in one place and networks built in another, for alternations anywhere in the file.", "anchors": ["src/sclite/stm2ctm.c:align_one_channel", "src/sclite/net_adt.c:Network_create_from_WTOKE"]}
{"id": "C169", "title": "The number of skipped words is right and nothing else changes", "statement": "With -m hyp, the number of words reported as skipped is the number of words of the items that no kept segment covers; texts, times and order of the lines are unchanged, and a word outside of alternations is left out exactly if it begins after the end of all segments or ends before their begin.", "quantifier": "all hypothesis word lists with alternations and all segments", "why_tests_cant": "A quantified statement about all times and all placements of alternations.", "anchors": ["src/sclite/stm2ctm.c:align_one_channel"]}
{"id": "C170", "title": "Friedman's test of the systems", "statement": "The statistic of the analysis of variance by ranks for the systems is Friedman's, corrected for ties, of the places of the systems for each speaker; a difference is reported exactly if it exceeds the 5% level of chi-square for one degree of freedom less than there are systems.", "quantifier": "all tables of percentages with any number of speakers and up to 31 systems, with and without ties", "why_tests_cant": "An identity between a computing formula with a correction term and the definition of the statistic, for all tables.", "anchors": ["src/sclite/anovar.c:compute_anovar", "src/sclite/anovar.c:analyze_rank_sum", "src/sclite/anovar.c:calc_adjust_for_trt", "src/sclite/rank.c:rank_on_pcts"]}
{"id": "C171", "title": "Friedman's test of the speakers", "statement": "The statistic of the analysis of variance by ranks for the speakers is Friedman's, corrected for ties, of the places of the speakers for each system.", "quantifier": "all tables of percentages with any number of speakers and systems, with and without ties", "why_tests_cant": "The correction depends on the shape of the table and on ties; tests use a few tables.", "anchors": ["src/sclite/anovar.c:compute_anovar", "src/sclite/anovar.c:calc_adjust_for_blks"]}
{"id": "C172", "title": "Multiple comparison of systems after Friedman's test", "statement": "Two systems are reported different exactly if their sums of ranks differ by at least z times the square root of b t (t + 1) / 6, for b speakers, t systems and the score z of the area 5% / (t (t - 1)); the one with the lower sum is named, and exchanging the systems exchanges the verdict.", "quantifier": "all sums of ranks, numbers of speakers and systems", "why_tests_cant": "The deviation between the documented and the computed limit shows only for particular sums.", "anchors": ["src/sclite/anovar.c:calc_stat_ranks", "src/sclite/anovar.c:calc_comp_value"]}
{"id": "C173", "title": "No system is named without a difference", "statement": "A pair of systems is reported different only if the analysis of variance finds a difference among the systems.", "quantifier": "all tables of percentages", "why_tests_cant": "Most tables with different pairs also have a significant statistic; the others have to be searched for.", "anchors": ["src/sclite/anovar.c:compute_anovar"]}
{"id": "C174", "title": "The table for comparing systems has each speaker's own percentages", "statement": "In the comparison of several systems, the percentage used for a speaker and a system is that system's percentage for that speaker, by the formula chosen: correct words, errors, or accuracy in per cent of the reference words.", "quantifier": "all formulas, all numbers of systems and speakers, all counts, all orders of speakers", "why_tests_cant": "Tests use systems scored on the same data in the same order.", "anchors": ["src/sclite/rank.c:init_RANK_struct_from_SCORES"]}
{"id": "C175", "title": "Systems and speakers are listed from the best to the worst", "statement": "The range tables and graphs list systems and speakers by mean percentage from the best to the worst, each once: by increasing error, or by decreasing correctness or accuracy.", "quantifier": "all tables of percentages and formulas", "why_tests_cant": "A statement about all orderings delivered by the sort, with ties.", "anchors": ["src/sclite/rank.c:rank_on_pcts", "src/sclite/range.c:print_range_graph"]}
{"id": "C176", "title": "High and low of the range tables", "statement": "The high and low values reported for a speaker or system are the highest and lowest percentage.", "quantifier": "all lists of percentages, which may be negative or above 100", "why_tests_cant": "Error rates above 100% and negative accuracies for all entries are rare in tests.", "anchors": ["src/sclite/range.c:do_blk_ranges", "src/sclite/range.c:do_trt_ranges"]}
{"id": "C177", "title": "Rows of the range graphs", "statement": "A row of the range graph has a column for every one or two per cent; the column nearest to the mean, and no other, is marked |, those nearest to a standard deviation off the mean +, and the rest - exactly between the low and the high value.", "quantifier": "all means, standard deviations, high and low values, both scales", "why_tests_cant": "A statement about all positions of real numbers relative to columns.", "anchors": ["src/sclite/range.c:print_range_graph"]}
{"id": "C178", "title": "Mean, median and variance", "statement": "The mean, median and variance of the speakers' or systems' percentages are those of the list; the median splits the values in halves and is the middle of the two central values.", "quantifier": "all lists of numbers", "why_tests_cant": "A statement about all orders, with ties, for odd and even numbers of values.", "anchors": ["src/sclite/statdist.c:calc_mean_var_std_dev_Zstat_double", "src/sclite/range.c:print_gnu_range_graph"]}
{"id": "C179", "title": "Series of the second kind of gnuplot range graphs", "statement": "For any number of systems or speakers, the format written for each series selects the column of that series from the data file; names of any length can be used for the files.", "quantifier": "all numbers of series, all file names", "why_tests_cant": "Only large numbers of series or long names reach the limits of the buffers.", "anchors": ["src/sclite/range.c:print_gnu_range_graph2"]}
{"id": "C180", "title": "Options of sc_stats have the documented effect", "statement": "For every sequence of documented options, sc_stats runs with -p, -v and -u on exactly if given, with the directory, name, description and width last given, and performs exactly the tests, reports and graphs that are named.", "quantifier": "all sequences of options and values", "why_tests_cant": "A statement about all orders and repetitions of options.", "anchors": ["src/sclite/sc_stats.c:proc_arcs"]}
{"id": "C181", "title": "The formula option of sc_stats", "statement": "The percentages compared by sc_stats are those chosen with -f: errors, correct words or accuracy.", "quantifier": "all command lines", "why_tests_cant": "A statement about all command lines; tests only use the default.", "anchors": ["src/sclite/sc_stats.c:proc_arcs"]}
{"id": "C182", "title": "What sc_stats does is determined by its command line", "statement": "For every command line sc_stats either stops with a message or runs with defined settings; in particular it reads alignments from its input exactly if -p is given.", "quantifier": "all command lines", "why_tests_cant": "Reading an uninitialised variable often goes unnoticed.", "anchors": ["src/sclite/sc_stats.c:main", "src/sclite/sc_stats.c:proc_arcs"]}
{"id": "C183", "title": "The stars of the composite report agree with the verdicts", "statement": "In the report on all significance tests, a pair of systems has stars exactly if the test reports a difference for it, one star for a level of 5%, two for 1% and three for 0.1%; the summary for each system says the same as the table.", "quantifier": "all tests, numbers of speakers, errors and systems", "why_tests_cant": "A statement about all counts and statistics, including the limits of the tables.", "anchors": ["src/sclite/rank.c:print_composite_significance2", "src/sclite/sentmcn.c:compute_McNemar", "src/sclite/signtest.c:sign_test_analysis", "src/sclite/wilcoxon.c:wilcoxon_test_analysis", "src/sclite/mtchprs.c:do_mtch_pairs_on_sys", "src/sclite/anovar.c:compute_anovar"]}
{"id": "C184", "title": "The composite report works for any number of systems", "statement": "The report on all significance tests can be written for any number of systems that can be compared.", "quantifier": "all numbers of systems", "why_tests_cant": "Only large comparisons reach the limits of the buffers.", "anchors": ["src/sclite/rank.c:print_composite_significance2"]}
{"id": "C185", "title": "The documented options of asclite have the documented effects", "statement": "Every option that asclite's help text describes has the effect described there on the run that follows: the files, formats and titles that are read, the properties that the aligner and the reports use, the filters and the reports; where an option is given more than once the last one counts.", "quantifier": "Every list of documented options with any values, in any order and number.", "why_tests_cant": "Options act on shared variables that are turned into properties far away; tests try a few command lines and cannot show that no other option changes what was asked for.", "anchors": ["src/asclite/core/main.cpp:main", "src/asclite/core/main.cpp:PrintHelp", "src/asclite/core/properties.cpp:SetProperty"]}
{"id": "C186", "title": "Every hypothesis on the command line of asclite keeps its file, format and title", "statement": "asclite scores the hypotheses in the order they are given, each read in the format given with it, trn if none is given, and reports it under the title given with it, whether or not a format is given.", "quantifier": "Every list of documented options with any number of hypotheses.", "why_tests_cant": "The optional arguments are told apart by their values; tests of some combinations say nothing about the others.", "anchors": ["src/asclite/core/main.cpp:main"]}
{"id": "C187", "title": "asclite rejects invalid command lines and only those", "statement": "asclite ends with an error, before it reads a file, for an unknown option, an option without its value, a value that the help text does not list, fewer than one thread, a missing reference or hypothesis, or formats that cannot be scored together; any other command line is carried out.", "quantifier": "Every list of arguments.", "why_tests_cant": "There are infinitely many invalid command lines; tests try some of them.", "anchors": ["src/asclite/core/main.cpp:main", "src/asclite/core/main.cpp:PrintHelp"]}
{"id": "C188", "title": "The generic cost model of asclite uses the hypotheses alone", "statement": "With -generic-cost asclite needs a hypothesis and no reference; a reference, the inter-segment gaps and filters for the reference are ignored, and filters that were asked for the hypotheses are applied to them.", "quantifier": "Every list of documented options that has -generic-cost.", "why_tests_cant": "The options are changed after they were read; tests cannot show for every combination that nothing of the reference is left.", "anchors": ["src/asclite/core/main.cpp:main"]}
{"id": "C189", "title": "With trn files every utterance of the reference is aligned with its hypothesis", "statement": "When asclite scores trn files, every utterance of the reference is aligned exactly once for every hypothesis, with the utterance of the hypothesis that has the same identifier, or with nothing if the hypothesis has none.", "quantifier": "Every reference and every list of hypotheses in trn format.", "why_tests_cant": "The set of identifiers is used up while it is read; tests with one complete hypothesis never reach the cases in which it matters.", "anchors": ["src/asclite/core/trntrn_segmentor.cpp:Reset", "src/asclite/core/trntrn_segmentor.cpp:Next", "src/asclite/core/recording.cpp:AlignHypRef"]}
{"id": "C190", "title": "Every hypothesis is scored under its own title", "statement": "asclite scores every hypothesis that is given and reports it under its title, the file name if none is given; what stands under a title comes from the file it was given with.", "quantifier": "Every list of hypotheses with any files and titles.", "why_tests_cant": "It depends on the titles being distinct, which tests take for granted.", "anchors": ["src/asclite/core/recording.cpp:Load", "src/asclite/core/alignment.h:AddSystem"]}
{"id": "C191", "title": "-only-SG selects one group of segments", "statement": "With -only-SG the group of segments with the given number is scored, for every hypothesis, and no other group is.", "quantifier": "Every number and every sequence of groups of any number of hypotheses.", "why_tests_cant": "The numbers depend on everything that was made before; a test with one hypothesis cannot show what happens with the next.", "anchors": ["src/asclite/core/recording.cpp:AlignHypRef", "src/asclite/core/segmentsgroup.h:SegmentsGroup", "src/asclite/core/id.cpp:GetID"]}
{"id": "C192", "title": "A recording never uses a reference that was not set", "statement": "From the loading of the files to the end of the run asclite reads and frees the reference only if it has one.", "quantifier": "Every combination of cost model, filters, speaker alignment and number of hypotheses.", "why_tests_cant": "What freeing an uninitialised pointer does depends on what the memory held; a test may pass by chance.", "anchors": ["src/asclite/core/recording.cpp:Recording", "src/asclite/core/recording.cpp:Load", "src/asclite/core/recording.cpp:Filter"]}
{"id": "C193", "title": "All lines of a report have the same length", "statement": "The report tables of sclite are printed, with a line for each row at least, and all lines of a report, the edges, the separations and the texts, have the same length.", "quantifier": "Every report that is built with any formats, values and separations, with any padding and centring.", "why_tests_cant": "The length of a line depends on the sizes of all cells of all rows and on how the rest is rounded; tests see a few tables.", "anchors": ["src/sclite/rpg.c:Desc_dump_report", "src/sclite/rpg.c:Desc_add_row_separation", "src/sclite/rpg.c:print_start_line"]}
{"id": "C194", "title": "The texts of a report are printed completely", "statement": "Printing a report ends; every row has its block of lines, in the order of the rows, and on these lines the text of each cell is printed completely and in order, broken only at blanks and at //. A row holds the values that were given for it.", "quantifier": "Every report with any formats, values and separations.", "why_tests_cant": "A cell that does not fit would be cut or printed for ever; whether it fits depends on all the other cells.", "anchors": ["src/sclite/rpg.c:Desc_dump_report", "src/sclite/rpg.c:get_next_string_value", "src/sclite/rpg.c:Desc_add_row_values"]}
{"id": "C195", "title": "The columns of a report are aligned", "statement": "In all rows of the same format the texts of a column are printed in the same place: left justified texts begin and right justified texts end at the same place in all lines, and centred texts have equally many blanks on both sides, up to two.", "quantifier": "Every report with any formats and values.", "why_tests_cant": "The place of a column depends on all cells to the left of it in all rows.", "anchors": ["src/sclite/rpg.c:Desc_dump_report"]}
{"id": "C196", "title": "A column of lower case is broken only where it is asked to be", "statement": "The text of a column whose letter is lower case is printed with one line for each of the parts between its //.", "quantifier": "Every text in every report.", "why_tests_cant": "The sizes are measured in one loop and used in another; tests cannot show that the two agree on every text.", "anchors": ["src/sclite/rpg.c:Desc_dump_report", "src/sclite/rpg.c:get_next_string_value"]}
{"id": "C197", "title": "Format strings are read as they are written", "statement": "A format string of letters, each with an optional separator, is read as these columns, in one way only; a format that has any other character before the colon is not accepted silently.", "quantifier": "Every list of columns and every string of characters.", "why_tests_cant": "There are infinitely many formats; tests use the ones in sclite.", "anchors": ["src/sclite/rpg.c:Desc_set_justification"]}
{"id": "C198", "title": "A report does not depend on earlier reports", "statement": "After the report is erased the same calls give the same report, whatever was printed before.", "quantifier": "Every two histories of calls and every sequence of calls after them.", "why_tests_cant": "The texts of earlier reports stay in memory; tests print few reports in one run.", "anchors": ["src/sclite/rpg.c:Desc_erase", "src/sclite/rpg.c:Desc_dump_report"]}
{"id": "C199", "title": "Line breaks are taken out of a text", "statement": "Desc_rm_lf gives the parts of a text between the // with a blank between each two, and no // is left.", "quantifier": "Every text.", "why_tests_cant": "Overlapping slashes make it possible that a // is left or made; tests cannot try all texts.", "anchors": ["src/sclite/rpg.c:Desc_rm_lf"]}
{"id": "C200", "title": "A row given value by value is the row given at once", "statement": "Setting the format, giving the values one by one and flushing the row has the same effect as adding the row with all its values; values that were not given are empty.", "quantifier": "Every state, format and list of values.", "why_tests_cant": "The two ways share static arrays of a fixed size; when they are too small depends on all earlier calls.", "anchors": ["src/sclite/rpg.c:Desc_flush_iterated_row", "src/sclite/rpg.c:Desc_set_iterated_value", "src/sclite/rpg.c:setup_iterations"]}
{"id": "C201", "title": "The alignment report of asclite is read back by sclite as what was aligned", "statement": "The SGML reports that asclite writes, one or several in a file, are read by sclite as one system for each report with the title, reference and hypothesis file, date, settings and category labels; for each speaker that occurs there is one group, with a path for each of the speaker's segments that has the segment's id, labels, file, channel, number and times and an element for each token alignment; if each speech is one speaker's, a speaker's segments are in order.", "quantifier": "Every number of reports, systems, speakers, segments and token alignments in every encoding, for alignments scored for the system and texts without quotes and newlines.", "why_tests_cant": "The writer and the reader are two programs in two languages that share only the file; tests compare a few reports.", "anchors": ["src/asclite/core/sgml_reportgenerator.cpp:GenerateSystem", "src/sclite/scores.c:load_SCORES_sgml", "src/sclite/sgml.c:add_SGML_tag"]}
{"id": "C202", "title": "Words in asclite's report keep result, text, times and confidence", "statement": "The line written for a segment is read as the same number of elements, each with its result (a speaker substitution as a substitution), its text with the marks of fragments and optional words, its confidence and its times to the millisecond; which values are declared depends exactly on what the tokens in the report have.", "quantifier": "Every segment with any token alignments and every set of declared values.", "why_tests_cant": "The values of a word are found by position, so that each word depends on all words of the report through the declaration.", "anchors": ["src/asclite/core/sgml_reportgenerator.cpp:GenerateTokenAlignment", "src/asclite/core/sgml_reportgenerator.cpp:PreProcessWordAux", "src/sclite/scores.c:load_SCORES_sgml"]}
{"id": "C203", "title": "Every segment is reported exactly once, under its speaker", "statement": "asclite's report has one speaker entry for each speaker that occurs, with exactly this speaker's segments in the order of their numbers, and the speakers are in the order of their smallest numbers.", "quantifier": "Every alignment with any number of speeches, speakers and segments.", "why_tests_cant": "Speakers are collected over all speeches; the order depends on all of them.", "anchors": ["src/asclite/core/sgml_reportgenerator.cpp:GenerateSystem", "src/asclite/core/sgml_reportgenerator.h:Speaker"]}
{"id": "C204", "title": "What was scored can be reported", "statement": "The result that the scorer gives to a pair fits what the report writes for it: a deletion has only a reference word, an insertion only a system word, a substitution both; asclite's report is written for every alignment of one or several systems.", "quantifier": "Every pair of words and every alignment.", "why_tests_cant": "Token alignments are shared by the systems of a run; which of them have a result for a system depends on all alignments.", "anchors": ["src/asclite/core/stt_scorer.cpp:Score", "src/asclite/core/sgml_reportgenerator.cpp:GenerateTokenAlignment", "src/asclite/core/tokenalignment.h:GetAlignmentFor"]}
{"id": "C205", "title": "The report names the hypothesis file", "statement": "If all tokens of a system come from one file, the report names this file.", "quantifier": "Every alignment.", "why_tests_cant": "The name is taken from the first token found; whether there is one depends on the alignment.", "anchors": ["src/asclite/core/sgml_reportgenerator.cpp:GenerateSystem"]}
{"id": "C206", "title": "Each asclite report goes to its own file or to the standard output", "statement": "With an output file asked for, the report of a system goes to the file with the system's name and .sgml, in the output directory if one is given; different systems have different files; if the file cannot be opened the report goes to the standard output.", "quantifier": "Every directory, system and file system.", "why_tests_cant": "Depends on the state of the file system and on all names.", "anchors": ["src/asclite/core/sgml_reportgenerator.cpp:Generate"]}
{"id": "C207", "title": "sclite's options take effect as its help text says, and only options with the same letter depend on their order", "statement": "A command line made of documented options with at most 40 hypotheses sets exactly what the options stand for; two command lines whose options of each letter come in the same order give the same result; the encodings and languages named in the help are accepted.", "quantifier": "Every list of documented options with any values, every environment.", "why_tests_cant": "Combinations and orders of 22 options with free values cannot be enumerated.", "anchors": ["src/sclite/sclite.c:proc_args", "src/sclite/text.c:TEXT_set_encoding", "src/sclite/text.c:TEXT_set_lang_prof"]}
{"id": "C208", "title": "sclite writes exactly the reports asked for", "statement": "The words after -o and -C name the reports and graphs that are made for each system, and no others; without -o, -C and -p the summary goes to the standard output.", "quantifier": "Every list of words, every system.", "why_tests_cant": "The words act on sets of bits; all sequences matter.", "anchors": ["src/sclite/sclite.c:proc_args", "src/sclite/sclite.c:main"]}
{"id": "C209", "title": "sclite accepts a command line exactly if it keeps the documented rules", "statement": "A command line is accepted exactly if it names an input, the files exist, the formats are known and fit the options, the type of identifiers is given where transcripts need it, and no options that exclude each other are combined.", "quantifier": "Every setting of the options, every file system.", "why_tests_cant": "A decision over many variables at once.", "anchors": ["src/sclite/sclite.c:proc_args"]}
{"id": "C210", "title": "sclite's reports lie beside the hypothesis or where the options say, each in its own file", "statement": "Without options the reports are named after the hypothesis file; -O replaces the directory and -n the name; no two reports of a run share a file.", "quantifier": "Every name of files and directories.", "why_tests_cant": "Distinctness of all names that can be built.", "anchors": ["src/sclite/sclite.c:main", "src/sclite/sc_dtl.c:score_dtl_spkr"]}
{"id": "C211", "title": "A run of sclite writes the reports of every system in order", "statement": "For piped systems and aligned hypotheses, in this order, a run writes the reports of each system, then pipes all systems out if asked, then the closing message.", "quantifier": "Every number of systems and hypotheses.", "why_tests_cant": "An invariant of the loop over the array of systems.", "anchors": ["src/sclite/sclite.c:main"]}
{"id": "C212", "title": "sclite's exit status tells if everything was done", "statement": "The status is 0 exactly if all systems could be read and aligned and all reports and graphs were made.", "quantifier": "Every run.", "why_tests_cant": "All ways in which a run can fail.", "anchors": ["src/sclite/sclite.c:main"]}
{"id": "C213", "title": "A row of the system summary shows the speaker's word and sentence error percentages", "statement": "In the summary by percentages, a speaker with reference words has correct, substituted, deleted, inserted and erroneous words in per cent of the reference words, rounded to one decimal; the first three add to 100.0 up to 0.1, and the errors are the sum of the three kinds up to 0.1. A speaker without reference words has counts marked by asterisks; the raw summary has counts; the weighted summary has weights in per cent of the weight of the reference words.", "quantifier": "Every speaker, any counts and weights.", "why_tests_cant": "Bounds on the rounding errors of all rows at once.", "anchors": ["src/sclite/scores.c:print_system_summary"]}
{"id": "C214", "title": "The last row of the system summary is that of all speakers together", "statement": "It shows the sums of the counts, or the percentages of the summed words and sentences; in the weighted summary those of the summed weights.", "quantifier": "Every list of speakers.", "why_tests_cant": "A statement on sums over any number of speakers; the loss by truncation grows with their number.", "anchors": ["src/sclite/scores.c:print_system_summary"]}
{"id": "C215", "title": "Mean, deviation and median in the system summary are those of the speakers with reference words", "statement": "The columns of words are taken over exactly the speakers that have reference words (marked by a plus sign if some have none), sentences and sentence errors over all speakers.", "quantifier": "Every list of speakers, with speakers without words at any places.", "why_tests_cant": "Depends on how many speakers without words there are and where.", "anchors": ["src/sclite/scores.c:print_system_summary", "src/sclite/statdist.c:calc_mean_var_std_dev_Zstat_double"]}
{"id": "C216", "title": "The summary of several systems shows in each speaker's line that speaker's errors", "statement": "For each system the line has the word errors of the speaker named; the last lines have the errors of all words together and mean, deviation and median over the speakers.", "quantifier": "Any number of systems and speakers, in any order.", "why_tests_cant": "Systems may list their speakers differently; sizes of fixed buffers.", "anchors": ["src/sclite/scores.c:print_N_system_summary"]}
{"id": "C217", "title": "The executive summary agrees with the systems' own summaries", "statement": "The line of a system shows the same numbers as the last row of its own summary; NCE is shown where confidences are available.", "quantifier": "Every list of systems.", "why_tests_cant": "Agreement of two reports made by different code, for all data.", "anchors": ["src/sclite/scores.c:print_N_system_executive_summary", "src/sclite/scores.c:print_system_summary", "src/sclite/det.c:hyp_confidences_available"]}
{"id": "C218", "title": "Normalised cross entropy measures the confidences", "statement": "It is (H + sum of log c over correct + sum of log(1-c) over wrong words) / H; it is 0 for confidences that tell nothing, below 1, does not fall when confidences improve, and that of a system is that of all its words.", "quantifier": "All words and confidences.", "why_tests_cant": "Monotonicity and limits over all confidences.", "anchors": ["src/sclite/scores.c:compute_SCORE_nce"]}
{"id": "C219", "title": "asclite's summary table is rectangular", "statement": "All lines of the sum and rsum reports have the same length, every heading stands at the right end of its column, and there are two lines per speaker and twelve more.", "quantifier": "All speakers, names, counts and both reports.", "why_tests_cant": "Widths depend on the data; every length of name and number is possible.", "anchors": ["src/asclite/core/rawsys_reportgenerator.cpp:GenerateSystem", "src/asclite/core/rawsys_reportgenerator.cpp:AddStringText", "src/asclite/core/statistics.cpp:Compute"]}
{"id": "C220", "title": "Numbers in asclite's summary table are shown whole", "statement": "No number is cut to fit its column: counts, totals, percentages, means and medians.", "quantifier": "All counts and numbers of speakers.", "why_tests_cant": "The widths come from logarithms; powers of ten and large percentages are the exceptions.", "anchors": ["src/asclite/core/rawsys_reportgenerator.cpp:GenerateSystem", "src/asclite/core/statistics.cpp:Compute"]}
{"id": "C221", "title": "A speaker's row in asclite's summary shows the percentages of the speaker's reference words", "statement": "Cells are percentages of the reference words rounded to a tenth; correct, substituted, speaker and deleted words add up to 100 within 0.2, errors to their kinds within 0.2; without reference words counts with a star are shown.", "quantifier": "All speakers and counts.", "why_tests_cant": "Rounding of all fractions.", "anchors": ["src/asclite/core/rawsys_reportgenerator.cpp:GenerateSystem", "src/asclite/core/rawsys_reportgenerator.h:F_ROUND"]}
{"id": "C222", "title": "The last row of asclite's summary shows all speakers together", "statement": "Sum shows the totals of the counts, Sum/Avg the totals in per cent of all reference words.", "quantifier": "All speakers, also without reference words.", "why_tests_cant": "Guards against division by 0 act at a distance.", "anchors": ["src/asclite/core/rawsys_reportgenerator.cpp:GenerateSystem", "src/asclite/core/statistics.h:GetSum"]}
{"id": "C223", "title": "Mean, S.D. and Median in asclite's summary describe the speakers with reference words", "statement": "In every column of words they are mean, standard deviation (n-1) and median of the values of the speakers that have reference words, rounded to a tenth.", "quantifier": "Every number of speakers, in every order.", "why_tests_cant": "Properties of all lists of values; the case of one speaker.", "anchors": ["src/asclite/core/statistics.cpp:Compute", "src/asclite/core/rawsys_reportgenerator.cpp:GenerateSystem"]}
{"id": "C224", "title": "asclite's normalised cross entropy measures the confidences", "statement": "It is 1 plus the words' logarithms over the entropy; at most 1; does not fall when a correct word's confidence rises or a wrong word's falls; 0 for confidences that tell nothing; that of the system is that of all words.", "quantifier": "All words and confidences.", "why_tests_cant": "Monotonicity over all confidences; conversion to int of extreme values.", "anchors": ["src/asclite/core/rawsys_reportgenerator.cpp:GetNCE", "src/asclite/core/rawsys_reportgenerator.cpp:GetTotalNCE", "src/asclite/core/rawsys_reportgenerator.cpp:AddSubstitutionWord"]}
{"id": "C225", "title": "Aligning several systems with each other gives the cheapest alignment", "statement": "With the generic method the reported cost is that of the returned alignment, and no alignment of all systems is cheaper, where a column costs one insertion per system without a word and one substitution per word outside the largest group of agreeing words. Any set of systems may have words in a column.", "quantifier": "Any number of systems, all token graphs, all non-negative costs.", "why_tests_cant": "A minimum over all alignments of any number of graphs.", "anchors": ["src/asclite/core/graph.cpp:FillGraph", "src/asclite/core/graph.cpp:PreviousCoordinatesGeneric", "src/asclite/core/graph.cpp:GetTransitionCostGenericWordBased", "src/asclite/core/graph.cpp:RetrieveAlignment"]}
{"id": "C226", "title": "The alignment of several systems keeps every word of every system", "statement": "No column is empty, and reading a system's entries through the columns gives all its words, once each, in order.", "quantifier": "Any number of systems with any words, all non-negative costs, word or time based.", "why_tests_cant": "Holds for whatever alignment is chosen, for all inputs.", "anchors": ["src/asclite/core/graph.cpp:RetrieveAlignment", "src/asclite/core/graph.cpp:GetBestCoordinateAndCost"]}
{"id": "C227", "title": "The cost of aligning several systems does not depend on their order", "statement": "Listing the systems in another order gives the same cost, and the alignments correspond.", "quantifier": "All orders of all systems.", "why_tests_cant": "All permutations of any number of systems.", "anchors": ["src/asclite/core/graph.cpp:GetTransitionCostGenericWordBased", "src/asclite/core/graph.cpp:GetCostInsertion"]}
{"id": "C228", "title": "Of equally cheap alignments of several systems the one with fuller columns is taken", "statement": "At each step back, among the cheapest steps the one in which most systems have a word is taken.", "quantifier": "All cells and costs.", "why_tests_cant": "Ties occur in combinations no one lists; depends on the order of the candidates.", "anchors": ["src/asclite/core/graph.cpp:GetBestCoordinateAndCost"]}
{"id": "C229", "title": "The time-based cost of a column of several systems adds up the words' distances", "statement": "A column costs, per missing word, its time span, plus for each word how far its times are from the span.", "quantifier": "All columns, all times.", "why_tests_cant": "All combinations of times of any number of words.", "anchors": ["src/asclite/core/graph.cpp:GetTransitionCostGenericTimeBased"]}
{"id": "C230", "title": "In the report of an alignment of several systems each system has its place", "statement": "Each entry has one word element per system, in the order of the systems, empty if the system has no word there.", "quantifier": "All systems, groups and columns.", "why_tests_cant": "Depends on which systems have words in a stretch of time.", "anchors": ["src/asclite/core/sgml_generic_reportgenerator.cpp:Generate", "src/asclite/core/ctmstmrttm_segmentor.cpp:NextGeneric"]}
{"id": "C231", "title": "The report of an alignment of several systems is written", "statement": "It goes to the file asked for, or to the standard output, also when the file cannot be opened.", "quantifier": "All settings and outcomes of opening the file.", "why_tests_cant": "The failure has to be produced; the output disappears silently.", "anchors": ["src/asclite/core/sgml_generic_reportgenerator.cpp:Generate"]}
{"id": "C232", "title": "The alignment log can be read back", "statement": "Every line of the log that asclite writes at feedback level 6 or 7 has, when read, the fields its header names, and what is printed of a word determines its number, text, neighbours, segment and times.", "quantifier": "All groups, words, times and verdicts.", "why_tests_cant": "Texts and numbers are unbounded; what matters is that no combination of them shifts a column.", "anchors": ["src/asclite/core/token.cpp:GetCSVInformation", "src/asclite/core/segmentsgroup.cpp:LoggingAlignment", "src/asclite/core/stt_scorer.cpp:Score", "src/align2html/align2html-main.pl:loadAlignFile"]}
{"id": "C233", "title": "align2html sees the groups that were aligned", "statement": "Reading a log gives exactly the groups logged, in each group the segments of each side with exactly their words in order; lines of groups that were not aligned change nothing.", "quantifier": "All runs with any groups, segments and words.", "why_tests_cant": "The reader works line by line with hashes; that nothing is merged or lost is a statement about all sequences of lines.", "anchors": ["src/asclite/core/recording.cpp:AlignHypRef", "src/asclite/core/segmentsgroup.cpp:LoggingAlignment", "src/align2html/align2html-main.pl:addSGLine"]}
{"id": "C234", "title": "align2html sees each aligned pair in the group it was aligned in", "statement": "Reading a log gives all pairs of words with their verdicts, each in the group in which it was aligned.", "quantifier": "All runs with any systems, groups and pairs.", "why_tests_cant": "The group number is kept with the reference segment; which number is printed depends on everything stored later.", "anchors": ["src/asclite/core/alignment.cpp:AddGraphAlignedSegment", "src/asclite/core/stt_scorer.cpp:Score", "src/align2html/align2html-main.pl:addAlignments"]}
{"id": "C235", "title": "The log of an alignment of several systems has eleven columns for each system", "statement": "Every line has the five common fields and eleven fields for each system, as the header announces.", "quantifier": "All numbers of systems, all columns of the alignment.", "why_tests_cant": "The number of columns varies with the number of systems.", "anchors": ["src/asclite/core/graphalignedsegment.cpp:LoggingAlignment", "src/asclite/core/segmentsgroup.cpp:LoggingAlignment", "src/asclite/core/recording.cpp:AlignGeneric"]}
{"id": "C236", "title": "Every group is in the log, and marked when it was not aligned", "statement": "Every group of segments is logged once as a group, with a line for each word and each segment without words, and once more marked as not aligned exactly when it was not aligned.", "quantifier": "All groups and outcomes.", "why_tests_cant": "The lines depend on the groups, which are unbounded.", "anchors": ["src/asclite/core/recording.cpp:AlignHypRef", "src/asclite/core/segmentsgroup.cpp:LoggingAlignment"]}
{"id": "C237", "title": "Feedback levels of asclite", "statement": "A message is shown exactly when its level is not above the one chosen, level 7 shows the alignment log only, and the lines of the log are made exactly when they are shown.", "quantifier": "All levels.", "why_tests_cant": "The level is any number the user gives.", "anchors": ["src/asclite/core/logger.cpp:log", "src/asclite/core/logger.h:isAlignLogON"]}
{"id": "C238", "title": "The duration of a group of segments", "statement": "The duration used for the adaptive costs is the time from the earliest begin to the latest end of the segments of the group.", "quantifier": "All groups of segments with times.", "why_tests_cant": "Ranges over all sets of segments, including groups without a segment of the system.", "anchors": ["src/asclite/core/segmentsgroup.cpp:GetTotalDuration", "src/asclite/core/segmentsgroup.cpp:GetMinTime", "src/asclite/core/segmentsgroup.cpp:GetMaxTime"]}
{"id": "C239", "title": "The segments over which diarization is scored", "statement": "The segments cover exactly the partition to be scored, do not overlap, come in order of time, and have at each instant exactly the speakers of reference and system who speak then, each once.", "quantifier": "All partitions, all turns of reference and system, all orders of simultaneous events the comparison allows.", "why_tests_cant": "Ranges over all sets of intervals and all orders of ties.", "anchors": ["src/md-eval/md-eval.pl:create_speaker_segs"]}
{"id": "C240", "title": "The diarization statistics are sums over time of their definitions", "statement": "Scored time, scored, missed and false alarm speech and speaker time, and speaker error time are each the sum over all instants of the partition of the definition at an instant.", "quantifier": "All partitions, turns and mappings of speakers.", "why_tests_cant": "Ranges over all inputs; a test compares totals of a few files.", "anchors": ["src/md-eval/md-eval.pl:score_speaker_segments", "src/md-eval/md-eval.pl:create_speaker_segs"]}
{"id": "C241", "title": "The components of the diarization error add up", "statement": "With a one to one mapping no component is negative; missed, error and correct speaker time make up the time of the reference's speakers; false alarm, error and correct that of the system's; and the error is zero exactly when the mapping matches the speakers at every instant scored.", "quantifier": "All partitions, turns and one to one mappings.", "why_tests_cant": "An identity and an equivalence for all inputs.", "anchors": ["src/md-eval/md-eval.pl:score_speaker_segments", "src/md-eval/md-eval.pl:print_sd_scores"]}
{"id": "C242", "title": "The no-score collar", "statement": "With a collar, the time scored is the time of the partition that is not within the collar of a begin or an end of a turn of the reference.", "quantifier": "All partitions, turns and collars.", "why_tests_cant": "Ranges over all sets of intervals and ties of their ends.", "anchors": ["src/md-eval/md-eval.pl:add_collars_to_uem"]}
{"id": "C243", "title": "Limiting the scoring to single speakers", "statement": "With the option -1, the time scored is the time of the partition at which not more than one turn of the reference is running.", "quantifier": "All partitions and turns, including ones that begin where another ends.", "why_tests_cant": "The failures depend on coincidences of times.", "anchors": ["src/md-eval/md-eval.pl:exclude_overlapping_speech_from_uem"]}
{"id": "C244", "title": "Overlapping turns of one speaker", "statement": "Overlapping turns of the same speaker are refused with a message; in any case a speaker is counted once at each instant.", "quantifier": "All files of turns.", "why_tests_cant": "A test with overlapping turns shows one outcome; that no file at all is refused ranges over all files.", "anchors": ["src/md-eval/md-eval.pl:prev_token", "src/md-eval/md-eval.pl:create_speaker_segs"]}
{"id": "C245", "title": "The confusion matrix of speaker types", "statement": "In the matrix of types of speakers, each row adds up to the time of the reference's speakers of that type, each column to that of the system's.", "quantifier": "All numbers of speakers of each type speaking at once.", "why_tests_cant": "Ranges over all multisets of types.", "anchors": ["src/md-eval/md-eval.pl:score_speaker_segments"]}
{"id": "C246", "title": "The mapping of speakers is the best one", "statement": "The mapping of speakers of the reference to those of the system is one to one, pairs only speakers that overlap, and has the least speaker error of all mappings over what is evaluated.", "quantifier": "All tables of overlaps, all one to one mappings.", "why_tests_cant": "Optimality compares with factorially many mappings.", "anchors": ["src/md-eval/md-eval.pl:map_speakers", "src/md-eval/md-eval.pl:weighted_bipartite_graph_match"]}
{"id": "C247", "title": "The diarization error is the least over all mappings", "statement": "The error reported is the least that any mapping of the speakers gives on what is scored.", "quantifier": "All inputs, collars and mappings.", "why_tests_cant": "Optimality compares with factorially many mappings; with a collar it depends on where the overlaps lie.", "anchors": ["src/md-eval/md-eval.pl:map_speakers", "src/md-eval/md-eval.pl:add_collars_to_uem", "src/md-eval/md-eval.pl:score_speaker_segments"]}
{"id": "C248", "title": "Regions excluded from scoring", "statement": "The time scored is the time of the partition outside the excluded regions of the reference; without such regions it is the whole partition.", "quantifier": "All partitions and sequences of words, turns and regions.", "why_tests_cant": "The outcome depends on what follows a region.", "anchors": ["src/md-eval/md-eval.pl:add_exclusion_zones_to_uem"]}
{"id": "C249", "title": "Smoothing of turns", "statement": "After rttmSmooth, a speaker of a file speaks exactly at the instants at which they spoke before or that lie in a pause of theirs of at most the threshold; the pauses left are longer than the threshold, turns begin and end where turns began and ended, every turn lies within one of the output, and smoothing again changes nothing.", "quantifier": "All RTTM files with durations that are not negative, all thresholds, all orders of turns with the same begin.", "why_tests_cant": "Ranges over all sets of turns, nested and overlapping ones included.", "anchors": ["src/rttmSmooth/rttmSmooth.pl:splice", "src/rttmSmooth/rttmSmooth.pl:$max"]}
{"id": "C250", "title": "Smoothing keeps channels apart", "statement": "Smoothing treats each channel of a file on its own: what is said in a channel stays in that channel.", "quantifier": "All RTTM files with speakers of the same name in several channels.", "why_tests_cant": "The outcome depends on how turns of two channels lie in time.", "anchors": ["src/rttmSmooth/rttmSmooth.pl:push @{ $data{$a[1]"]}
{"id": "C251", "title": "Smoothing when STM files are made into RTTM files", "statement": "stm2rttm joins the segments of a speaker that are at most the smoothing time apart: all that was said is said, only such pauses are filled, no pause of at most the smoothing time is left, and turns do not overlap.", "quantifier": "All sequences of segments and smoothing times.", "why_tests_cant": "The outcome depends on what follows a pair that was joined.", "anchors": ["src/stm2rttm/stm2rttm.pl:SMOOTHING_TIME", "src/stm2rttm/stm2rttm.pl:splice"]}
{"id": "C252", "title": "Overlapping segments of a speaker in an STM file", "statement": "stm2rttm stops with a message exactly when two segments of a speaker in a channel overlap.", "quantifier": "All sequences of segments.", "why_tests_cant": "Whether an overlap is seen depends on the pauses before it.", "anchors": ["src/stm2rttm/stm2rttm.pl:segments from the same speaker overlap"]}
{"id": "C253", "title": "Words are given to the speakers of turns", "statement": "mergectm2rttm outputs exactly the words whose middle lies in a turn, each with the speaker of a turn that contains its middle.", "quantifier": "All turns, words and random choices.", "why_tests_cant": "Ranges over all configurations of turns and words and over the random choice.", "anchors": ["src/mergectm2rttm/mergectm2rttm.pl:findSpeaker", "src/mergectm2rttm/mergectm2rttm.pl:MergedData", "src/mergectm2rttm/mergectm2rttm.pl:loadRTTMFile"]}
{"id": "C254", "title": "rttmSort sorts", "statement": "The output of rttmSort consists of the lines of the input, none lost or repeated, in order of file, channel and begin time, lines without a time first.", "quantifier": "All sets of RTTM lines.", "why_tests_cant": "Ranges over all sets of lines.", "anchors": ["src/rttmSort/rttmSort.pl:cmp_float", "src/rttmSort/rttmSort.pl:key_begtime"]}
{"id": "C255", "title": "rttmSort orders the types of lines", "statement": "Lines of one file, channel and begin time come in the order of their types, a turn before its words.", "quantifier": "All sets of RTTM lines.", "why_tests_cant": "Depends on how times are written.", "anchors": ["src/rttmSort/rttmSort.pl:sort_order", "src/rttmSort/rttmSort.pl:stm_file"]}
{"id": "C256", "title": "From speakers to speech activity", "statement": "In the output of spkr2sad there is speech in a channel of a file exactly at the instants at which some speaker was speaking; there is one line for each turn, in the order of the begins.", "quantifier": "All RTTM files.", "why_tests_cant": "Ranges over all sets of turns and instants.", "anchors": ["src/spkr2sad/spkr2sad.pl:speech"]}
{"id": "C257", "title": "Initial alef is normalised", "statement": "hamzaNorm replaces alef with madda or hamza by bare alef where it is the first letter of a word, in every word of a text, however words are separated and also if they are optionally deletable.", "quantifier": "All texts.", "why_tests_cant": "Ranges over all texts and kinds of white space.", "anchors": ["src/hamzaNorm/hamzaNorm.pl:normalize"]}
{"id": "C258", "title": "hamzaNorm changes nothing else", "statement": "hamzaNorm leaves every other character at its place and keeps the length of the text, and a second run changes nothing.", "quantifier": "All texts and positions.", "why_tests_cant": "Ranges over all texts.", "anchors": ["src/hamzaNorm/hamzaNorm.pl:normalize"]}
{"id": "C259", "title": "Final tanween are removed", "statement": "tanweenFilt removes the tanween at the end of every word, also before the parenthesis of an optionally deletable word; after it no word ends with a tanween.", "quantifier": "All texts.", "why_tests_cant": "Four replacements act one after the other on overlapping places; the claim ranges over all texts.", "anchors": ["src/tanweenFilt/tanweenFilt.pl:normalize", "src/tanweenFilt/tanweenFilt.pl:AllTanween"]}
{"id": "C260", "title": "All tanween are removed", "statement": "With -a, tanweenFilt removes all tanween and nothing else.", "quantifier": "All texts.", "why_tests_cant": "Ranges over all texts.", "anchors": ["src/tanweenFilt/tanweenFilt.pl:AllTanween"]}
{"id": "C261", "title": "Only the text of a record is changed", "statement": "In CTM files hamzaNorm and tanweenFilt change the fifth column only, in STM files the text after the label only; comments, other columns and white space are kept.", "quantifier": "All lines with any white space and any number of columns.", "why_tests_cant": "Ranges over all layouts of lines.", "anchors": ["src/hamzaNorm/hamzaNorm.pl:@ctm", "src/hamzaNorm/hamzaNorm.pl:@stm", "src/tanweenFilt/tanweenFilt.pl:@stm"]}
{"id": "C262", "title": "The default format of def_art", "statement": "Without -i, def_art treats its input as plain text, as its manual says.", "quantifier": "All inputs.", "why_tests_cant": "The claim is about every input.", "anchors": ["src/def_art/def_art.pl:InFmt", "src/def_art/def_art.pl:opt_i"]}
{"id": "C263", "title": "Overlapping objects of one speaker", "statement": "rttmValidator reports an error exactly when two objects of the same type, other than the points IP and CB, of the same speaker in a channel share time; the verdict does not depend on the order of the lines.", "quantifier": "All RTTM files with times of at most three decimals.", "why_tests_cant": "Ranges over all pairs of lines of all files, while the program compares neighbours only.", "anchors": ["src/rttmValidator/rttmValidator.pl:check_metadata_overlap", "src/rttmValidator/rttmValidator.pl:check_logic_errors", "src/rttmValidator/rttmValidator.pl:ROUNDING_THRESHOLD"]}
{"id": "C264", "title": "Words and the units around them", "statement": "rttmValidator reports an error exactly when a sentence unit, edit or filler contains no whole word of its speaker, or when a word shares time with one of its speaker's without lying within it.", "quantifier": "All RTTM files with times of at most three decimals.", "why_tests_cant": "Ranges over all files; the comparisons have a tolerance that must make no difference.", "anchors": ["src/rttmValidator/rttmValidator.pl:check_metadata_content", "src/rttmValidator/rttmValidator.pl:check_partial_word_coverage", "src/rttmValidator/rttmValidator.pl:find_partial_coverage", "src/rttmValidator/rttmValidator.pl:find_word"]}
{"id": "C265", "title": "Every word belongs to one sentence unit and one turn", "statement": "In a file that rttmValidator accepts every word lies within exactly one sentence unit and exactly one turn of its speaker, unless the option for that check is off.", "quantifier": "All RTTM files with times of at most three decimals.", "why_tests_cant": "Follows from two checks together, over all files.", "anchors": ["src/rttmValidator/rttmValidator.pl:ensure_word_covered_by_metadata_of_type", "src/rttmValidator/rttmValidator.pl:find_type", "src/rttmValidator/rttmValidator.pl:check_metadata_overlap"]}
{"id": "C266", "title": "Regions that are not scored", "statement": "rttmValidator reports every unit, edit, filler, turn, word or sound that lies across the border of a NOSCORE region of its channel.", "quantifier": "All RTTM files with times of at most three decimals.", "why_tests_cant": "Ranges over all files and all ways to write the regions.", "anchors": ["src/rttmValidator/rttmValidator.pl:check_noscore_overlap", "src/rttmValidator/rttmValidator.pl:find_partial_coverage"]}
{"id": "C267", "title": "Interruption points", "statement": "rttmValidator accepts a file only if every edit in a sentence unit has an interruption point for an edit at its end, every filler in one a point for a filler at its begin, and every point in a unit has what its subtype says; and it accepts a file in which this is so.", "quantifier": "All RTTM files with times of at most three decimals.", "why_tests_cant": "Three lists are matched with marks set on the way; the claim ranges over all files.", "anchors": ["src/rttmValidator/rttmValidator.pl:ensure_ip_existed_for_edit_and_filler", "src/rttmValidator/rttmValidator.pl:extract_mde_of_type", "src/rttmValidator/rttmValidator.pl:find_object"]}
{"id": "C268", "title": "Options of rttmValidator", "statement": "The options -u, -s, -e and -p each leave out one check and no other: a file that is accepted is accepted with further options, and otherwise the verdict is what the remaining checks say.", "quantifier": "All RTTM files and combinations of options.", "why_tests_cant": "Ranges over all files.", "anchors": ["src/rttmValidator/rttmValidator.pl:mde_types", "src/rttmValidator/rttmValidator.pl:check_logic_errors", "src/rttmValidator/rttmValidator.pl:opt_p"]}
{"id": "C269", "title": "Speakers are declared", "statement": "Without -p, rttmValidator accepts a file only if the speaker of every line is declared in a SPKR-INFO line of the same recording, except for lines that have no speaker: NOSCORE and NON-SPEECH.", "quantifier": "All RTTM files.", "why_tests_cant": "Ranges over all files.", "anchors": ["src/rttmValidator/rttmValidator.pl:find_speaker", "src/rttmValidator/rttmValidator.pl:check_syntax_errors"]}
{"id": "C270", "title": "The histogram of latencies", "statement": "In the histogram of slatreport every datum belongs to exactly one of the printed ranges, the count of a range is the number of data in it, and the counts add up to the number of data.", "quantifier": "All lists of latencies and numbers of ranges.", "why_tests_cant": "Ranges over all lists and numbers of ranges, with values on the limits.", "anchors": ["src/slatreport/slatreport.pl:frequency_distribution", "src/slatreport/slatreport.pl:range_max_use"]}
{"id": "C271", "title": "Every line with a latency counts", "statement": "slatreport uses every line of the RTTM file that has a latency, and stops if a line does not have ten fields.", "quantifier": "All RTTM files.", "why_tests_cant": "Ranges over all files.", "anchors": ["src/slatreport/slatreport.pl:LoadRTTM", "src/slatreport/slatreport.pl:TSLAT"]}
{"id": "C272", "title": "Conditions and mean latencies", "statement": "slatreport uses exactly the lines that satisfy all conditions given; the mean latency from the middle is halfway between those from the begin and from the end, and that from the begin is the greatest if no duration is negative.", "quantifier": "All data and conditions.", "why_tests_cant": "Ranges over all data and combinations of conditions.", "anchors": ["src/slatreport/slatreport.pl:Compute", "src/slatreport/slatreport.pl:IsElement", "src/slatreport/slatreport.pl:mean"]}
{"id": "C273", "title": "Standard deviation of latencies", "statement": "With at least two data slatreport prints a standard deviation, which is zero exactly when all latencies are the same.", "quantifier": "All data.", "why_tests_cant": "Ranges over all data.", "anchors": ["src/slatreport/slatreport.pl:stddev", "src/slatreport/slatreport.pl:Compute"]}
{"id": "C274", "title": "Which compounds are split", "statement": "acomp.pl replaces a word that the lexicon has no entry for by words of the lexicon it is put together from, with nothing, s or en between them, and leaves it as it is if there are none.", "quantifier": "All lexicons, options and words.", "why_tests_cant": "The search backtracks over all prefixes at every level; the set of lexicons and words is unbounded.", "anchors": ["src/acomp/acomp.pl:is_Compound", "src/acomp/acomp.pl:Comp_LU"]}
{"id": "C275", "title": "Constituents may be as long as the words of the lexicon", "statement": "Whether acomp.pl splits a compound does not depend on the lexicon having entries with hyphens or underscores as long as its constituents.", "quantifier": "All lexicons and words.", "why_tests_cant": "Ranges over all lexicons.", "anchors": ["src/acomp/acomp.pl:LoadLex", "src/acomp/acomp.pl:is_Compound"]}
{"id": "C276", "title": "One expansion with the longest constituent first", "statement": "acomp.pl writes at most one expansion for a word, made of the word's own letters, and its first constituent is the longest with which an expansion begins; of a fragment a beginning is split off in the same way.", "quantifier": "All lexicons, options and words.", "why_tests_cant": "Ranges over all possible expansions of all words.", "anchors": ["src/acomp/acomp.pl:is_Compound", "src/acomp/acomp.pl:Comp_LU"]}
{"id": "C277", "title": "Triplet consonants", "statement": "Unless the option -t is given, acomp.pl finds compounds in which one of three equal consonants was dropped.", "quantifier": "All lexicons, options and texts.", "why_tests_cant": "That an option has no effect is a statement on all texts.", "anchors": ["src/acomp/acomp.pl:is_Compound", "src/acomp/acomp.pl:String_LU", "src/acomp/acomp.pl:DoTriplet"]}
{"id": "C278", "title": "Lines of a text are expanded independently", "statement": "What acomp.pl writes for a line depends on the lexicon, the options and the words of the line only, not on other lines or on the amount of white space; comments are copied.", "quantifier": "All lexicons, options and texts.", "why_tests_cant": "The expansions found are kept in a table that also holds those of the lexicon; ranges over all histories of it.", "anchors": ["src/acomp/acomp.pl:Comp_LU", "src/acomp/acomp.pl:CompHash", "src/acomp/acomp.pl:String_LU"]}
{"id": "C279", "title": "The expansion ends", "statement": "acomp.pl works through every text with every lexicon and minimum length and writes one line for each line read.", "quantifier": "All lexicons, options and texts.", "why_tests_cant": "Termination for all inputs.", "anchors": ["src/acomp/acomp.pl:is_Compound", "src/acomp/acomp.pl:MinCompLen"]}
{"id": "C280", "title": "Times of the parts of a CTM record", "statement": "The records acomp.pl writes for a CTM record have its file, channel and confidence, share its time evenly from begin to end, and have the constituents of its word for words; there is at least one.", "quantifier": "All records, lexicons and options.", "why_tests_cant": "Ranges over all times and numbers of constituents.", "anchors": ["src/acomp/acomp.pl:String_LU", "src/acomp/acomp.pl:new_words"]}
{"id": "C281", "title": "Optionally deletable compounds", "statement": "For a word in parentheses acomp.pl writes what it writes for the word, each constituent in parentheses.", "quantifier": "All words, lexicons and options.", "why_tests_cant": "Ranges over all words.", "anchors": ["src/acomp/acomp.pl:String_LU", "src/acomp/acomp.pl:Frag"]}
{"id": "C282", "title": "Order of the lexicon", "statement": "The order of the entries of the lexicon does not change what acomp.pl writes.", "quantifier": "All lexicons and words.", "why_tests_cant": "Ranges over all permutations.", "anchors": ["src/acomp/acomp.pl:LoadLex", "src/acomp/acomp.pl:CompHash"]}
{"id": "C283", "title": "Segments in the part of the transcript asked for", "statement": "chfilt writes, in their order, exactly the segments that begin less than half a second before the begin asked for or later, and end less than half a second after the end asked for or earlier; those without words only with -k.", "quantifier": "All transcripts, begins and ends.", "why_tests_cant": "Ranges over all times.", "anchors": ["src/chfilt/chfilt.pl:in_range", "src/chfilt/chfilt.pl:eqdelta", "src/chfilt/chfilt.pl:KeepEmptyLines"]}
{"id": "C284", "title": "Padding of segments", "statement": "With -p chfilt moves the begin of every segment back and the end on by at most the padding, into half of the pause at most, within the part of the transcript asked for; segments of a channel that overlap none before do not overlap afterwards.", "quantifier": "All transcripts and paddings.", "why_tests_cant": "Ranges over all numbers of segments and times.", "anchors": ["src/chfilt/chfilt.pl:PadSilence", "src/chfilt/chfilt.pl:lastStmEndIndex"]}
{"id": "C285", "title": "Smoothing of segments", "statement": "With -s chfilt joins neighbours in a channel that have the same speaker and are less than the given time apart: none are left, the words are kept in order, and every segment lies within one of its speaker afterwards.", "quantifier": "All transcripts and times.", "why_tests_cant": "Ranges over all numbers of segments and times.", "anchors": ["src/chfilt/chfilt.pl:SmoothSegments", "src/chfilt/chfilt.pl:lastStmEndIndex"]}
{"id": "C286", "title": "Exclusion of overlapping speech", "statement": "With -E chfilt keeps exactly the segments that overlap no other of their channel, and the others lie in regions that are marked not to be scored; afterwards no two neighbours overlap.", "quantifier": "All transcripts.", "why_tests_cant": "Ranges over all pairs of segments of all transcripts.", "anchors": ["src/chfilt/chfilt.pl:ExcludeOverlap", "src/chfilt/chfilt.pl:ignore_time_segment_in_scoring"]}
{"id": "C287", "title": "Records for gaps", "statement": "With -i chfilt keeps all segments and adds records without words for the free time of each channel in the part of the transcript asked for: every moment is in a record or within a hundredth of a second of one, and a gap overlaps no segment.", "quantifier": "All transcripts, begins and ends.", "why_tests_cant": "Ranges over all moments.", "anchors": ["src/chfilt/chfilt.pl:AddInterSegGap", "src/chfilt/chfilt.pl:inter_segment_gap"]}
{"id": "C288", "title": "Channels of a transcript are treated independently", "statement": "What chfilt does to the segments of one channel when it pads, smooths, excludes and adds gaps does not depend on the segments of the others.", "quantifier": "All transcripts.", "why_tests_cant": "Non-interference: ranges over all interleavings.", "anchors": ["src/chfilt/chfilt.pl:lastStmEnd", "src/chfilt/chfilt.pl:lastStmEndIndex"]}
{"id": "C289", "title": "Channel of a speaker label", "statement": "The channel chfilt writes for a speaker is the speaker's label without its number.", "quantifier": "All labels.", "why_tests_cant": "Ranges over all labels.", "anchors": ["src/chfilt/chfilt.pl:spkr", "src/chfilt/chfilt.pl:makeChannel"]}
{"id": "C290", "title": "Validated CTM files", "statement": "ctmValidator validates a file exactly if every line is a comment or a record: five to eight fields separated by white space with none before the first, file and speaker of letters, digits, hyphens and underscores, channel a number, A or B, begin and duration decimal numbers (or * for the tags of alternatives), confidence a decimal number, the type a known one, and lexemes of English texts English tokens.", "quantifier": "All files and languages.", "why_tests_cant": "An exact characterisation of the accepted files ranges over all texts.", "anchors": ["src/ctmValidator/ctmValidator.pl:ctm_record", "src/ctmValidator/ctmValidator.pl:TYPES", "src/ctmValidator/ctmValidator.pl:NUM_FIELDS", "src/ctmValidator/ctmValidator.pl:MIN_FIELDS"]}
{"id": "C291", "title": "Complaints about CTM files", "statement": "ctmValidator complains about the number of fields of a line, or about every field that is wrong and no other, once each.", "quantifier": "All languages and all lines that are no comments, have a field and do not begin with white space.", "why_tests_cant": "Ranges over all combinations of wrong fields.", "anchors": ["src/ctmValidator/ctmValidator.pl:errors", "src/ctmValidator/ctmValidator.pl:ctm_record"]}
{"id": "C292", "title": "English tokens of CTM files", "statement": "ctmValidator accepts as English lexemes those of letters, hyphens and apostrophes, acronyms, and hesitations, and rejects tokens with other characters.", "quantifier": "All tokens.", "why_tests_cant": "Ranges over all tokens.", "anchors": ["src/ctmValidator/ctmValidator.pl:token", "src/ctmValidator/ctmValidator.pl:HESITATION"]}
{"id": "C293", "title": "English words of STM files", "statement": "stmValidator recognises words, words with hyphens and fragments, which end with a hyphen, and no other tokens of letters and hyphens.", "quantifier": "All tokens of letters and hyphens.", "why_tests_cant": "Ranges over all tokens.", "anchors": ["src/stmValidator/STMList.pm:validateEnglishText"]}
{"id": "C294", "title": "Parentheses in STM files", "statement": "A token stmValidator recognises as English has parentheses only around the whole of it, and what it recognises without parentheses it recognises with them; case does not count.", "quantifier": "All tokens.", "why_tests_cant": "Ranges over all tokens.", "anchors": ["src/stmValidator/STMList.pm:validateEnglishText"]}
{"id": "C295", "title": "Words of STM files in other languages", "statement": "stmValidator recognises tokens without punctuation, perhaps in parentheses, hesitations and the tags of alternatives in texts that are not English, and no others.", "quantifier": "All tokens.", "why_tests_cant": "Ranges over all tokens.", "anchors": ["src/stmValidator/STMList.pm:validateNonEnglishText", "src/stmValidator/STMList.pm:punct"]}
{"id": "C296", "title": "What stmValidator looks at", "statement": "stmValidator validates a file only if every record has its fields, begin and end are times, and all words of the text but a label are recognised.", "quantifier": "All files and languages.", "why_tests_cant": "That fields are not looked at is a statement on all contents of them.", "anchors": ["src/stmValidator/STMList.pm:loadFile", "src/stmValidator/STMList.pm:validate", "src/stmValidator/STMList.pm:passFailValidate"]}
{"id": "C297", "title": "Conversion of RTTM files to CTM files", "statement": "rttm2ctm writes one CTM record for every word (LEXEME of subtype lex) of an RTTM file, in the order of the file, with file, channel, begin, duration, token and confidence as they are, and nothing for comments and other records; the records written have six fields when read.", "quantifier": "All files of comments and records.", "why_tests_cant": "Ranges over all files.", "anchors": ["src/rttm2ctm/rttm2ctm.pl:LEXEME", "src/rttm2ctm/rttm2ctm.pl:txtExp"]}
{"id": "C298", "title": "RTTM lines rttm2ctm does not take", "statement": "rttm2ctm ends with an error at the first line that is neither a comment nor a record; the words before it are written and nothing after it.", "quantifier": "All files and lines.", "why_tests_cant": "Ranges over all ways a line can be wrong.", "anchors": ["src/rttm2ctm/rttm2ctm.pl:malformed line", "src/rttm2ctm/rttm2ctm.pl:NORTMETADATA"]}
{"id": "C299", "title": "CTM files made from RTTM files are valid", "statement": "ctmValidator validates what rttm2ctm writes for an RTTM file.", "quantifier": "All files of comments and records, and all languages.", "why_tests_cant": "A statement on two programs and all files.", "anchors": ["src/rttm2ctm/rttm2ctm.pl:print OUT", "src/ctmValidator/ctmValidator.pl:beg_time"]}
{"id": "C300", "title": "Sorting CTM files", "statement": "hubscr sortCTM writes every record of a CTM file once, in order of file, channel and begin, records equal in these in the order of the file; the markers of alternatives stay around the words they belong to.", "quantifier": "All files and all readings of texts as numbers.", "why_tests_cant": "Ranges over all files.", "anchors": ["src/hubscr/hubscr.pl:sortCTM", "src/hubscr/hubscr.pl:ctmSort"]}
{"id": "C301", "title": "Sorting STM files", "statement": "hubscr sortSTM writes the comments of an STM file first, in their order, and then every record once, in order of file, channel and begin, records equal in these in the order of the file.", "quantifier": "All files and all readings of texts as numbers.", "why_tests_cant": "Ranges over all files.", "anchors": ["src/hubscr/hubscr.pl:sortSTM", "src/hubscr/hubscr.pl:stmSort"]}
{"id": "C302", "title": "Words of extended CTM files", "statement": "For rt-stt hubscr keeps comments and records without type, drops records of other types than lex, and writes of words the first six fields, without the confidence if it is NA.", "quantifier": "All lines.", "why_tests_cant": "Ranges over all lines.", "anchors": ["src/hubscr/hubscr.pl:rtFilt"]}
{"id": "C303", "title": "Names of hypotheses", "statement": "A hypothesis of hubscr given as file, file and title, or file, title and output name, separated by a backslash and a hash, has these names; those left out or empty are the file.", "quantifier": "All names without the separator.", "why_tests_cant": "Ranges over all names.", "anchors": ["src/hubscr/hubscr.pl:Hyps_DEFS", "src/hubscr/hubscr.pl:Hyps_iname", "src/hubscr/hubscr.pl:Hyps_oname"]}
{"id": "C304", "title": "Command lines of hubscr", "statement": "hubscr refuses a command line exactly if it is not as the usage asks: files that are there, known language and hub, a lexicon for German, options only for the languages and alignments they are for, and not both -K and -w.", "quantifier": "All command lines and file systems.", "why_tests_cant": "Ranges over all combinations of options and files.", "anchors": ["src/hubscr/hubscr.pl:ProcessCommandLine", "src/hubscr/hubscr.pl:LDCLEX", "src/hubscr/hubscr.pl:opt_M", "src/hubscr/hubscr.pl:SLM_LM"]}
{"id": "C305", "title": "The hash table of words is a dictionary", "statement": "After any words have been added to a table with any values, every word is found with the value it was given last, and no other word is found; no call runs for ever, however often the table has grown.", "quantifier": "All sequences of additions, all sizes and allowed rates, all hash functions.", "why_tests_cant": "Ranges over all sequences of additions and all collisions of the hash function.", "anchors": ["src/sclite/slm_v2/src/rr_libs/sih.c:sih_create", "src/sclite/slm_v2/src/rr_libs/sih.c:sih_add", "src/sclite/slm_v2/src/rr_libs/sih.c:sih_lookup"]}
{"id": "C306", "title": "Entries of the hash table of words", "statement": "The number of entries of a table is the number of different words that were added, and there is always an empty slot.", "quantifier": "All sequences of additions, all sizes and allowed rates, all hash functions.", "why_tests_cant": "Ranges over all sequences of additions.", "anchors": ["src/sclite/slm_v2/src/rr_libs/sih.c:nentries", "src/sclite/slm_v2/src/rr_libs/sih.c:nslots"]}
{"id": "C307", "title": "Occupancy of the hash table of words", "statement": "The occupancy of a table never exceeds the limit it was made with.", "quantifier": "All sequences of additions, all sizes and allowed rates.", "why_tests_cant": "Ranges over all sequences of additions.", "anchors": ["src/sclite/slm_v2/src/rr_libs/sih.c:max_occupancy", "src/sclite/slm_v2/src/rr_libs/sih.c:growth_ratio"]}
{"id": "C308", "title": "The nearest prime", "statement": "nearest_prime_up ends for every number and gives the smallest prime that is not smaller.", "quantifier": "All numbers.", "why_tests_cant": "That it ends needs that there are infinitely many primes.", "anchors": ["src/sclite/slm_v2/src/rr_libs/sih.c:nearest_prime_up"]}
{"id": "C309", "title": "Files of hash tables", "statement": "A table of words that is written to a file is read again as it was; a file that is not complete is rejected.", "quantifier": "All tables made by additions, and all files.", "why_tests_cant": "Ranges over all tables.", "anchors": ["src/sclite/slm_v2/src/rr_libs/sih.c:sih_val_write_to_file", "src/sclite/slm_v2/src/rr_libs/sih.c:sih_val_read_from_file"]}
{"id": "C310", "title": "Numbers of words", "statement": "A list of words read into a table gives every word the number of its line, lines that begin with ## not counted.", "quantifier": "All files.", "why_tests_cant": "Ranges over all files.", "anchors": ["src/sclite/slm_v2/src/rr_libs/read_wlist_si.c:read_wlist_into_siht"]}
{"id": "C311", "title": "Indices in two bytes", "statement": "An index into the list of longer n-grams that is stored in two bytes, with a table of the places where the high part grows, is got back from its place in the list and the two bytes.", "quantifier": "All lists of places and indices that do not fall.", "why_tests_cant": "The table grows with the list, and a list long enough to have several entries has hundreds of thousands of n-grams.", "anchors": ["src/sclite/slm_v2/src/short_indices.c:new_index", "src/sclite/slm_v2/src/short_indices.c:get_full_index"]}
{"id": "C312", "title": "Table of counts", "statement": "The index given for a count stands for that count from then on: the table holds the count there after any later counts, the same count gets the same index, and the program ends only when the table is full of other counts.", "quantifier": "All tables, all sequences of counts.", "why_tests_cant": "Ranges over all sequences of calls.", "anchors": ["src/sclite/slm_v2/src/lookup_index_of.c:lookup_index_of", "src/sclite/slm_v2/src/counts.c:lookup_index_of"]}
{"id": "C313", "title": "Back-off weights in two bytes", "statement": "A back-off weight whose logarithm is in the range is got back to within the size of the range over the number of elements, and one outside the range is got back exactly.", "quantifier": "All ranges, numbers of elements, weights, and arrays of weights outside the range.", "why_tests_cant": "Ranges over all weights and over what has been stored before and will be later.", "anchors": ["src/sclite/slm_v2/src/two_byte_alphas.c:short_alpha", "src/sclite/slm_v2/src/two_byte_alphas.c:double_alpha"]}
{"id": "C314", "title": "Merging of files of n-grams", "statement": "mergeidngram ends and writes every n-gram of its files once, in order, with the sum of its counts, and no other.", "quantifier": "All numbers of files in order, of any lengths, and all n.", "why_tests_cant": "Ranges over all files, and speaks of termination.", "anchors": ["src/sclite/slm_v2/src/mergeidngram.c:cmp_ngram", "src/sclite/slm_v2/src/mergeidngram.c:main", "src/sclite/slm_v2/src/get_ngram.c:get_ngram"]}
{"id": "C315", "title": "Probabilities by backing off", "statement": "The probability of an n-gram in an ARPA model is the one of the model if the n-gram is in it, and else the one without its first word, times the weight of its context if the context is in the model; the program ends with an error only for a probability above one.", "quantifier": "All models whose tables fit together, all n-grams of any length.", "why_tests_cant": "Ranges over all models and depends on a binary search in nested tables.", "anchors": ["src/sclite/slm_v2/src/arpa_bo_ng_prob.c:arpa_bo_ng_prob"]}
{"id": "C316", "title": "Steps of backing off as written", "statement": "The annotation of a probability shows the steps of backing off: the length of each n-gram looked for, whether its context was known, and the length of the n-gram used; different steps are written differently.", "quantifier": "All contexts of any length and all sequences of steps.", "why_tests_cant": "The number of sequences grows exponentially with the length.", "anchors": ["src/sclite/slm_v2/src/decode_bo_case.c:decode_bo_case", "src/sclite/slm_v2/src/arpa_bo_ng_prob.c:bo_case", "src/sclite/slm_v2/src/perplexity.c:decode_bo_case"]}
{"id": "C317", "title": "Forced backing off", "statement": "With a list of words for forced backing off only the context after the last such word counts, with this word itself if it is listed as inclusive.", "quantifier": "All contexts and all lists.", "why_tests_cant": "Ranges over all contexts.", "anchors": ["src/sclite/slm_v2/src/calc_prob_of.c:calc_prob_of"]}
{"id": "C318", "title": "N-grams to m-grams", "statement": "ngram2mgram writes every m-gram with which an n-gram of its input begins, once and in order, with the sum of the counts of these n-grams, and no other; it ends with an error if and only if the n-grams are not in order.", "quantifier": "All files of n-grams in any of the forms, all n and m.", "why_tests_cant": "Ranges over all files.", "anchors": ["src/sclite/slm_v2/src/ngram2mgram.c:main", "src/sclite/slm_v2/src/rr_libs/rr_feof.c:rr_feof"]}
{"id": "C319", "title": "Vocabulary from frequencies", "statement": "wfreq2vocab with -gt N writes exactly the words that occur more than N times, and with -top N the N most frequent words, or all if there are fewer, in alphabetical order.", "quantifier": "All lists of words and counts with at most as many records as -records allows, all results the sort may give for equal counts.", "why_tests_cant": "Ranges over all lists and over the freedom of an unstable sort.", "anchors": ["src/sclite/slm_v2/src/wfreq2vocab.c:sort_by_count", "src/sclite/slm_v2/src/wfreq2vocab.c:sort_alpha", "src/sclite/slm_v2/src/wfreq2vocab.c:main"]}
{"id": "C320", "title": "Good-Turing discounts are from zero to one and free the counts of singletons", "statement": "Whatever the numbers of n-grams by count, the discounts that are used are numbers from zero to one and the discounting range is never raised. The range is the largest, up to the one asked for and the counts recorded, for which n-grams of all counts exist and all discounts of Katz are from zero to one; the discounts are those of Katz, and zero up to the cutoff. For such a range the discounts free as many counts as there are n-grams that occur once. If the range comes down to one for single words and some words do not occur, a word that does not occur gets as much as one that occurs once.", "quantifier": "All numbers of n-grams by count, including those with gaps, all ranges, cutoffs and orders of n-grams.", "why_tests_cant": "Divisions by zero and the mass freed depend on all the counts at once; tests show a few tables.", "anchors": ["src/sclite/slm_v2/src/compute_discount.c:compute_gt_discount"]}
{"id": "C321", "title": "The perplexity is that of the words that count, each after the words before it", "statement": "For a text that ends with a blank or end of line evallm computes the perplexity from the probabilities of exactly the words that are no context cues and are known, or of unknown words too with -include_unks. Each is taken after the words directly before it, at most one less than the order of the model, whether or not these count themselves. The number of words, the context cues and unknown words removed, the stream of probabilities, the list of unknown words and the numbers of n-grams hit agree with this, where the n-gram hit is the longest one used after backing off. With a closed vocabulary nothing is printed if a word is outside it.", "quantifier": "All models of any order, all texts, all options.", "why_tests_cant": "The context is an array that is moved with every word; only an induction over the text shows that it always holds the right words.", "anchors": ["src/sclite/slm_v2/src/perplexity.c:compute_perplexity", "src/sclite/slm_v2/src/rr_libs/rr_feof.c:rr_feof"]}
{"id": "C322", "title": "The last line for a word decides how backing off from it is forced", "statement": "If every line of a list of forced backing off that is no comment has a word and a mark that begins with i or e, backing off from a word is forced as the last line for it says; without a line, as the options for context cues say, and then those for unknown words. A word outside the vocabulary in the list should not change the result.", "quantifier": "All lists, vocabularies, context cues and options.", "why_tests_cant": "Ranges over all lists and combinations of options; memory kept from line to line is invisible in tests with good lists.", "anchors": ["src/sclite/slm_v2/src/gen_fb_list.c:gen_fb_list"]}
{"id": "C323", "title": "Word frequencies are the numbers of times the words occur", "statement": "text2wfreq writes every word of the text exactly once, with the number of times it occurs in the text, and no other word, whatever the size of its hash table.", "quantifier": "All texts, words of all bytes, all sizes of the table.", "why_tests_cant": "Collisions and the order of words in a chain depend on the text; tests meet few of them.", "anchors": ["src/sclite/slm_v2/src/text2wfreq.c:update_chain", "src/sclite/slm_v2/src/text2wfreq.c:hash", "src/sclite/slm_v2/src/text2wfreq.c:print"]}
{"id": "C324", "title": "The n-grams counted are those of the text", "statement": "The temporary files text2idngram makes from a text are in order and together count every n-gram as often as it occurs in the text, whatever the size of the buffer.", "quantifier": "All texts of at least n words, all n, sizes of the buffer and contents of memory.", "why_tests_cant": "What goes wrong at the border of a buffer needs buffers that are full, a hundred megabytes by default.", "anchors": ["src/sclite/slm_v2/src/text2idngram.c:main", "src/sclite/slm_v2/src/text2idngram.c:add_to_buffer"]}
{"id": "C325", "title": "Temporary files of n-grams are merged whatever their number", "statement": "text2idngram merges its temporary files so that each n-gram has the sum of its counts in them, there are no other n-grams, and the result is in order, for any number of files and any limit of open files of two or more.", "quantifier": "All lists of temporary files, all limits of open files.", "why_tests_cant": "The recursion is only entered with more files than the limit, twenty by default with a hundred megabytes each.", "anchors": ["src/sclite/slm_v2/src/idngram.h:merge_tempfiles", "src/sclite/slm_v2/src/idngram.h:compare_ngrams"]}
{"id": "C326", "title": "The statistics of n-grams count every shorter n-gram", "statement": "For a file of n-grams in order, idngram2stats gives for each k below n the number of different k-grams that begin an n-gram, and for each j how many of them occur j times; a file out of order or with an n-gram twice ends with an error.", "quantifier": "All files of n-grams, all n, k and numbers of frequencies.", "why_tests_cant": "Whether the last k-gram is counted depends on how the last two n-grams of the file differ; the tests have no such file.", "anchors": ["src/sclite/slm_v2/src/idngram2stats.c:main", "src/sclite/slm_v2/src/idngram.h:merge_tempfiles"]}
{"id": "C327", "title": "Weights for interpolation stay weights", "statement": "However many iterations interpolate makes, the weights of each tag keep their sum, fixed weights do not change and none becomes negative; each step gives a model the mean of its parts of the probabilities of the items for training.", "quantifier": "All numbers of models and items, all positive probabilities, all first weights, all iterations.", "why_tests_cant": "The number of iterations and the weights depend on all items; a wrong correction for fixed weights changes the sums only a little.", "anchors": ["src/sclite/slm_v2/src/interpolate.c:eval", "src/sclite/slm_v2/src/interpolate.c:main"]}
