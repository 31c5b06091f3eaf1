{
 "claims": [
  {
   "property": "C01",
   "status": "proved",
   "theorems": [
    "Verif.LevMatrix.array_table_correct",
    "Verif.LevMatrix.array_table_rejects"
   ],
   "note": "All dimensions, sizes and histories."
  },
  {
   "property": "C02",
   "status": "proved",
   "theorems": [
    "Verif.LevMatrix.compressed_refines_array",
    "Verif.LevMatrix.compressed_total_of_shrinking"
   ],
   "note": "Conditional on a lossless codec; partial correctness for every codec, completion when blocks shrink."
  },
  {
   "property": "C03",
   "status": "proved",
   "theorems": [
    "Verif.LevMatrix.block_addressing"
   ],
   "note": "For the geometry the constructor computes."
  },
  {
   "property": "C04",
   "status": "partial",
   "theorems": [
    "Verif.LevMatrix.memory_accounting_partial",
    "Verif.LevMatrix.memory_accounting_wrong",
    "Verif.LevMatrix.compression_frees_nothing",
    "Verif.LevMatrix.compression_lowers_counter"
   ],
   "note": "The claim is false in the code: each decompression adds 5 bytes; exact drift proved, negation proved by witness."
  },
  {
   "property": "C05",
   "status": "partial",
   "theorems": [
    "Verif.LevMatrix.gc_terminates_partial",
    "Verif.LevMatrix.gc_can_loop_forever"
   ],
   "note": "False for incompressible blocks (infinite loop proved for all fuel); proved when blocks shrink."
  },
  {
   "property": "C06",
   "status": "proved",
   "theorems": [
    "Verif.AscGraph.best_cost_is_minimum",
    "Verif.AscGraph.best_cost_is_minimum_plain",
    "Verif.AscGraph.align_spec"
   ],
   "note": "Any number of acyclic token graphs, hyp/ref mode. Without pruning the reported cost is the minimum over all alignments; align_spec covers pruning/word optimisation (minimum over the alignments those tests accept). Table used through its specification (C01/C02). Generic mode not modelled."
  },
  {
   "property": "C07",
   "status": "proved",
   "theorems": [
    "Verif.AscGraph.retrieved_alignment_has_reported_cost",
    "Verif.AscGraph.align_spec"
   ],
   "note": "All settings with non-negative costs, pruning on or off."
  },
  {
   "property": "C08",
   "status": "proved",
   "theorems": [
    "Verif.AscGraph.retrieved_alignment_projects_to_paths",
    "Verif.AscGraph.linear_complete_path"
   ],
   "note": "Each stream's tokens in the retrieved alignment form one complete path; for a plain word sequence that is all of its words in order."
  },
  {
   "property": "C09",
   "status": "partial",
   "theorems": [
    "Verif.AscGraph.optionally_meaning_partial",
    "Verif.AscGraph.optionally_both_misses_hyp",
    "Verif.AscGraph.optionally_both_hyp_cost"
   ],
   "note": "The property is false for the code: 'both' never enables the hypothesis side (negation proved). All other values are right."
  },
  {
   "property": "C10",
   "status": "partial",
   "theorems": [
    "Verif.Token.edit_distance_partial",
    "Verif.Token.edit_distance_wrong_on_empty",
    "Verif.Token.edit_distance_empty",
    "Verif.Token.edit_distance_symm"
   ],
   "note": "Proved for all non-empty texts (array accesses in range, result is the least number of edits). False when one text is empty: 0 is returned (negation proved, exact behaviour proved)."
  },
  {
   "property": "C11",
   "status": "proved",
   "theorems": [
    "Verif.Token.token_equivalence_written",
    "Verif.Token.token_equivalence_symm",
    "Verif.Token.token_equivalence_words",
    "Verif.Token.token_equivalence_beginning",
    "Verif.Token.token_equivalence_ending",
    "Verif.Token.token_equivalence_fragments",
    "Verif.Token.token_equivalence_two_beginnings",
    "Verif.Token.two_beginnings_not_prefix",
    "Verif.Token.clean_total"
   ],
   "note": "All text pairs and settings. Two word beginnings match when one occurs anywhere in the other (shown not to be the prefix rule)."
  },
  {
   "property": "C12",
   "status": "proved",
   "theorems": [
    "Verif.Segmentor.overlap_iff_share_point",
    "Verif.Segmentor.overlap_symm"
   ],
   "note": ""
  },
  {
   "property": "C13",
   "status": "partial",
   "theorems": [
    "Verif.Segmentor.segmentor_partition_partial",
    "Verif.Segmentor.segmentor_groups_connected",
    "Verif.Segmentor.out_of_order_segment_lost",
    "Verif.Segmentor.zero_length_segment_lost"
   ],
   "note": "Proved when each speaker's segments per source/channel are in time order; otherwise false (a reference segment is lost, witness). Zero-length segments are also lost."
  },
  {
   "property": "C14",
   "status": "partial",
   "theorems": [
    "Verif.Scorer.verdict_right_partial",
    "Verif.Scorer.verdict_total",
    "Verif.Scorer.verdict_wrong_for_both"
   ],
   "note": "False for superfluous optional hypothesis words under the setting `both` (witness); proved everywhere else."
  },
  {
   "property": "C15",
   "status": "proved",
   "theorems": [
    "Verif.Scorer.report_balances",
    "Verif.Scorer.report_accumulates",
    "Verif.Scorer.first_report_right_partial"
   ],
   "note": ""
  },
  {
   "property": "C16",
   "status": "partial",
   "theorems": [
    "Verif.Scorer.speaker_lookup_partial",
    "Verif.Scorer.speaker_lookup_collision",
    "Verif.Scorer.speaker_line_overflow"
   ],
   "note": "Proved when sources and channels contain no '|'; false otherwise (witness). Lines with more than six fields write out of bounds."
  },
  {
   "property": "C17",
   "status": "partial",
   "theorems": [
    "Verif.LineStyle.alternation_exact",
    "Verif.LineStyle.alternation_language_partial",
    "Verif.LineStyle.line_language_partial",
    "Verif.LineStyle.plain_words",
    "Verif.LineStyle.empty_not_spelled",
    "Verif.LineStyle.optional_pair_lost",
    "Verif.LineStyle.empty_pair_cuts",
    "Verif.LineStyle.slash_word"
   ],
   "note": "Exact language for every transcript without a group written `{ / }`. It is the intended one unless an alternative of two or more items inside a group can be empty; then the empty choice is lost (witnesses), and `a { @ @ } b` has no path at all. The empty sequence itself is never spelled."
  },
  {
   "property": "C18",
   "status": "partial",
   "theorems": [
    "Verif.LineStyle.parse_returns_iff",
    "Verif.LineStyle.line_returns_partial",
    "Verif.LineStyle.reversed_never_returns"
   ],
   "note": "Exact: the parser returns iff the line does not close a group that is not open and open one later; on `} {` it recurses for ever."
  },
  {
   "property": "C19",
   "status": "partial",
   "theorems": [
    "Verif.Topo.listing_inner",
    "Verif.Topo.listing_reachable_partial",
    "Verif.Topo.listing_once_partial",
    "Verif.Topo.listing_nodup_partial",
    "Verif.Topo.listing_after_some",
    "Verif.Topo.listing_topological_partial",
    "Verif.Topo.listing_plain",
    "Verif.Topo.tail_word_not_listed",
    "Verif.Topo.head_word_listed_twice",
    "Verif.Topo.fork_not_topological",
    "Verif.LineStyle.parsed_listing",
    "Verif.LineStyle.parsed_listing_wrong"
   ],
   "note": "The exact set listed is proved for every graph. The claim fails three ways: optional words at the end are not listed, a first token reached from an earlier first token is listed (and later deleted) twice, and a word after alternatives is listed before the later alternatives. Completeness, single listing and order are proved where these are excluded."
  },
  {
   "property": "C20",
   "status": "proved",
   "theorems": [
    "Verif.Net.network_alignment_optimal",
    "Verif.Net.plain_alignment_optimal",
    "Verif.Net.wwd_below"
   ],
   "note": "Exact arithmetic in place of float; networks with fewer than 65534 arcs (back pointers are unsigned short) and total costs below the built-in sentinel. Negative distances are covered too."
  },
  {
   "property": "C21",
   "status": "proved",
   "theorems": [
    "Verif.Net.network_path_reports_optimum",
    "Verif.Net.plain_alignment_optimal"
   ],
   "note": "As C20; the path is the report of a cheapest alignment, step by step."
  },
  {
   "property": "C22",
   "status": "proved",
   "theorems": [
    "Verif.Net.traversal_topological",
    "Verif.Net.depth_traversal_complete"
   ],
   "note": "For acyclic networks with one source, as built by sclite; the marks left by the traversal satisfy its precondition again."
  },
  {
   "property": "C23",
   "status": "proved",
   "theorems": [
    "Verif.Net.network_path_reports_optimum",
    "Verif.Net.reported_verdicts",
    "Verif.Net.optimum_separates_nulls",
    "Verif.Net.nulls_not_reported"
   ],
   "note": "Absence of nulls is proved for the standard distance, when a null is never equal to another word (an '@-' fragment would be) and the empty word of make_empty is not null."
  },
  {
   "property": "C24",
   "status": "proved",
   "theorems": [
    "Verif.Score.scoreAll_totals",
    "Verif.Score.scoreAll_balance",
    "Verif.Score.scoreAll_order"
   ],
   "note": "Every group's counts and weight sums are those of the entries of its speaker's paths, for any list of utterances from a fresh table; weights are summed exactly (rounding of doubles is not modelled)."
  },
  {
   "property": "C25",
   "status": "partial",
   "theorems": [
    "Verif.Text.equal_word_exact",
    "Verif.Text.equal_word_whole",
    "Verif.Text.fragment_begin",
    "Verif.Text.fragment_end",
    "Verif.Text.fragment_begin_second",
    "Verif.Text.fragment_end_second",
    "Verif.Text.equal_word_refl",
    "Verif.Text.equal_word_symm_partial",
    "Verif.Text.equal_word_not_symm",
    "Verif.Text.opt_del_text",
    "Verif.Text.opt_del_other"
   ],
   "note": "All texts made of complete characters. Symmetry is false when both words are fragments (witness), proved otherwise. With fragments an empty text reads the byte before it."
  },
  {
   "property": "C26",
   "status": "proved",
   "theorems": [
    "Verif.Rover.rover_alignment",
    "Verif.Rover.rover_slot_size"
   ],
   "note": "Any number of systems and word sequences with (total words) x (systems) < 65534 (the aligner's tables hold unsigned 16-bit numbers), any cost function within the aligner's limits, any earlier table content. Copying a network is taken to be exact."
  },
  {
   "property": "C27",
   "status": "partial",
   "theorems": [
    "Verif.Rover.rover_output",
    "Verif.Rover.vote_winner",
    "Verif.Rover.vote_succeeds",
    "Verif.Rover.vote_majority",
    "Verif.Rover.oracle_lists_all",
    "Verif.Rover.avgconf_zero_exits",
    "Verif.Rover.too_many_words_exits",
    "Verif.Rover.rover_empty_chunk_exits"
   ],
   "note": "Highest score, earliest first, nothing for the null word, majority with alpha 1: proved with exact rationals. Not for every slot: averaged confidences that all vanish (even with alpha 1) and more than 49 different words make the program exit (proved)."
  },
  {
   "property": "C28",
   "status": "proved",
   "theorems": [
    "Verif.Score.sortPath_runs",
    "Verif.Score.sortPath_keeps_order"
   ],
   "note": "Termination, fixed entries, per-run permutation, sortedness, order of each side, stability. Start times are integers (NaN is not modelled)."
  },
  {
   "property": "C29",
   "status": "partial",
   "theorems": [
    "Verif.Print.print_once_partial",
    "Verif.Print.print_ends",
    "Verif.Print.print_range",
    "Verif.Print.wide_entry_never_ends",
    "Verif.Print.long_single_undefined"
   ],
   "note": "When printing ends every entry has been printed exactly once, in order (all widths). It ends if words leave 10 characters of the line free and unpaired words have at most 40 characters; it never ends if an entry other than the last does not leave 7 characters free, and reads outside a string for longer unpaired words (both proved for all such alignments)."
  },
  {
   "property": "C30",
   "status": "proved",
   "theorems": [
    "Verif.Score.getGrp_total",
    "Verif.Score.getGrp_same",
    "Verif.Score.getGrp_different",
    "Verif.Score.addPath_total"
   ],
   "note": "Over all states reachable from a fresh table by asking for groups and adding paths; a write outside of an array is a distinct outcome and is shown never to happen."
  },
  {
   "property": "C31",
   "status": "proved",
   "theorems": [
    "Verif.Stats.mean_ranks_increasing",
    "Verif.Stats.mean_ranks_decreasing",
    "Verif.Stats.larger_rank",
    "Verif.Stats.ranks_total"
   ],
   "note": "For any sorted permutation the library's sort may deliver; exact rationals."
  },
  {
   "property": "C32",
   "status": "partial",
   "theorems": [
    "Verif.Stats.sign_swap_partial",
    "Verif.Stats.sign_significant_partial",
    "Verif.Stats.sign_names_better_total",
    "Verif.Stats.sign_swap_equal_totals",
    "Verif.Stats.sign_wrong_direction",
    "Verif.Stats.sign_large_always"
   ],
   "note": "Swapping flips the verdict if the totals differ; with equal totals it does not (witness). The system named is the one with the better total, which need not be better on more speakers (witness). With more than 20 speakers every uneven split is called significant (proved)."
  },
  {
   "property": "C33",
   "status": "partial",
   "theorems": [
    "Verif.Stats.mcNemar_swap",
    "Verif.Stats.mcNemar_names_fewer",
    "Verif.Stats.mcNemar_significant_partial",
    "Verif.Stats.mcNemar_large_always",
    "Verif.Stats.mcNemar_false_alarm",
    "Verif.Stats.mcNemar_table",
    "Verif.Stats.mcNemar_by_sent_swap",
    "Verif.Stats.mcNemar_by_sent_names_fewer",
    "Verif.Stats.hasError_iff"
   ],
   "note": "Swap and direction proved for all tables. Significance equals the exact binomial criterion up to 20 unique errors; from 21 on every uneven table is called significant, even m against m+1 where the probability is 1 (both proved). Square roots are avoided by comparing squares; doubles are exact rationals."
  },
  {
   "property": "C34",
   "status": "proved",
   "theorems": [
    "Verif.Stats.wilcoxon_sums",
    "Verif.Stats.wilcoxon_untied",
    "Verif.Stats.wilcoxon_swap",
    "Verif.Stats.wilcoxon_significant"
   ],
   "note": "Any sorted permutation; fewer than 1024 speakers (the product in the variance is a 32-bit int); exact arithmetic."
  },
  {
   "property": "C35",
   "status": "proved",
   "theorems": [
    "Verif.Mapsswe.segments_conserve",
    "Verif.Mapsswe.segments_swap",
    "Verif.Mapsswe.pairs_exact",
    "Verif.Mapsswe.system_conserve"
   ],
   "note": "For all alignments in which exactly the insertions have no reference word; also over whole systems."
  },
  {
   "property": "C36",
   "status": "partial",
   "theorems": [
    "Verif.Chan.utterance_words",
    "Verif.Chan.utterance_is_first",
    "Verif.Chan.hasMid_unique",
    "Verif.Chan.reduced_words",
    "Verif.Chan.reduced_words_lost",
    "Verif.Chan.open_alternation_undefined"
   ],
   "note": "Proved for all channels of words and closed alternations. Two exceptions, each with a witness: when the reference is reduced to chosen utterances, words after the last chosen one are scored nowhere; an alternation that is never closed makes the code read past the channel's words."
  },
  {
   "property": "C37",
   "status": "proved",
   "theorems": [
    "Verif.Mfa.overlap_length",
    "Verif.Mfa.overlap_symm",
    "Verif.Mfa.overlap_pos_iff"
   ],
   "note": "Exact rationals for the doubles."
  },
  {
   "property": "C38",
   "status": "partial",
   "theorems": [
    "Verif.Mfa.chunks_words_partial",
    "Verif.Mfa.last_channel_partition",
    "Verif.Mfa.chunks_end_in_silence",
    "Verif.Mfa.foreign_word",
    "Verif.Mfa.short_common_silence"
   ],
   "note": "Termination, order and exactly-once of a channel's own words are proved for all inputs, and the exact partition when nothing follows the channel. False in general: a system that has run out of words contributes the next word of its file, which belongs to another recording (witness). The common silence can be shorter than the required duration (witness)."
  },
  {
   "property": "C39",
   "status": "proved",
   "theorems": [
    "Verif.Lines.lines_complete",
    "Verif.Lines.lines_independent",
    "Verif.Lines.next_line"
   ],
   "note": "Files without NUL bytes, buffers of at least two bytes (all callers use 100 or more). A line beginning with a NUL byte makes the code read before the buffer (shown in an example)."
  },
  {
   "property": "C40",
   "status": "proved",
   "theorems": [
    "Verif.Text.strcmp_defined",
    "Verif.Text.strcmp_zero_iff",
    "Verif.Text.strcmp_antisymm",
    "Verif.Text.strcmp_trans",
    "Verif.Text.lookup_finds_exactly"
   ],
   "note": "All encodings, all texts made of complete characters; word lists of any length."
  },
  {
   "property": "C41",
   "status": "partial",
   "theorems": [
    "Verif.Text.utf8_round_trip_partial",
    "Verif.Text.encoder_rejects",
    "Verif.Text.decode_first"
   ],
   "note": "Decoding proved for all Unicode code points, encoding and round trip below 0x20000; the encoder rejects every code point from 0x20000 on (negation proved)."
  },
  {
   "property": "C42",
   "status": "partial",
   "theorems": [
    "Verif.Split.escape_round_trip",
    "Verif.Split.word_round_trip_partial",
    "Verif.Split.word_round_trip_backslash",
    "Verif.Split.word_round_trip_swallows",
    "Verif.Split.word_round_trip_asterisk",
    "Verif.Split.word_round_trip_missing_tag",
    "Verif.Split.word_round_trip_empty"
   ],
   "note": "Exact for parts without backslashes; false with backslashes, a final asterisk, only one tag, or an empty value (witnesses). The search for the separator is modelled without its case conversion."
  },
  {
   "property": "C43",
   "status": "partial",
   "theorems": [
    "Verif.LList.lists_are_sequences",
    "Verif.LList.self_copy_empties"
   ],
   "note": "Proved for every sequence of calls on any number of lists, with any allocator that delivers unused addresses, unless a list is copied onto itself, which empties it (proved). malloc failure is not modelled."
  },
  {
   "property": "C44",
   "status": "proved",
   "theorems": [
    "Verif.Split.separate_chars",
    "Verif.Split.units_plain",
    "Verif.Split.separate_plain"
   ],
   "note": "All encodings, flags and texts of complete characters, buffers of at least 16 bytes (callers use 100); Guarani with a multi-byte encoding."
  },
  {
   "property": "C45",
   "status": "partial",
   "theorems": [
    "Verif.Lines.nth_field_partial",
    "Verif.Lines.nth_field_empty"
   ],
   "note": "The loop counter is never incremented: only field 0 is right, every other field is returned empty for every line (negation proved)."
  },
  {
   "property": "C46",
   "status": "partial",
   "theorems": [
    "Verif.Refs.every_utterance_partial",
    "Verif.Refs.own_reference",
    "Verif.Refs.load_iff",
    "Verif.Refs.run_iff",
    "Verif.Refs.last_line_dropped"
   ],
   "note": "Exact condition for success, and every utterance read gets the (first) reference with the identical identifier. A last line without newline is dropped silently, in both files (witness). Repeated references are only compared up to the length of the later one (part of the exact condition)."
  },
  {
   "property": "C47",
   "status": "partial",
   "theorems": [
    "Verif.Corresp.rank_rows_partial",
    "Verif.Corresp.rank_mixes_speakers"
   ],
   "note": "Proved when all systems list the same speakers in the same order. False otherwise: rows are filled by position, so a row can hold another speaker's value, and with a missing speaker an entry is never set (witnesses)."
  },
  {
   "property": "C48",
   "status": "partial",
   "theorems": [
    "Verif.Pad.center_partial",
    "Verif.Pad.center_overruns",
    "Verif.Pad.strncpy_pad"
   ],
   "note": "Proved for texts of fewer than 2000 characters; longer texts are written beyond the static buffer (proved)."
  },
  {
   "property": "C49",
   "status": "partial",
   "theorems": [
    "Verif.Corresp.identical_two_partial",
    "Verif.Corresp.identical_all_partial",
    "Verif.Corresp.prefix_accepted",
    "Verif.Corresp.reads_past_end"
   ],
   "note": "Exact: 'different' is answered iff neither reference is a beginning of the other; references of the same length reported identical are. A proper beginning is accepted as identical, or memory past the alignment is read (both proved for all such alignments)."
  },
  {
   "property": "C50",
   "status": "partial",
   "theorems": [
    "Verif.Ident.identifiers_unique_partial",
    "Verif.Ident.nth_identifier",
    "Verif.Ident.identifiers_repeat"
   ],
   "note": "For fewer than 2^w objects (w the width of unsigned long); identifiers repeat after that, as proved."
  },
  {
   "property": "C51",
   "status": "proved",
   "theorems": [
    "Verif.AscGraph.predecessors_reach_start"
   ],
   "note": "Bounded length, never leaves the graph, only the start has no predecessor; with pruning and word optimisation on or off."
  },
  {
   "property": "C52",
   "status": "proved",
   "theorems": [
    "Verif.AscGraph.pair_cost_breakdown",
    "Verif.AscGraph.pair_cost_time"
   ],
   "note": "Written-out cost formulas."
  },
  {
   "property": "C53",
   "status": "proved",
   "theorems": [
    "Verif.AscGraph.traceback_prefers_pairs"
   ],
   "note": "For every table with non-negative step totals."
  },
  {
   "property": "C54",
   "status": "proved",
   "theorems": [
    "Verif.Token.clean_written",
    "Verif.Token.clean_total",
    "Verif.Token.optional_hyphen_shows_parenthesis"
   ],
   "note": "Under the stated side conditions on the word; the text \"(-)\" is shown as \")\"."
  },
  {
   "property": "C55",
   "status": "partial",
   "theorems": [
    "Verif.Segmentor.second_reset_undefined",
    "Verif.Segmentor.segmentor_partition_partial"
   ],
   "note": "False: proved for all well-formed references that the second Reset with the same references dereferences the begin iterator of an empty set. The first hypothesis set is handled (C13)."
  },
  {
   "property": "C56",
   "status": "partial",
   "theorems": [
    "Verif.Segmentor.divider_largest_partial",
    "Verif.Segmentor.divider_undefined_at_zero"
   ],
   "note": "Both times zero leads to undefined behaviour."
  },
  {
   "property": "C57",
   "status": "partial",
   "theorems": [
    "Verif.Scorer.first_report_right_partial",
    "Verif.Scorer.report_accumulates",
    "Verif.Scorer.second_report_wrong"
   ],
   "note": "False: counters are not cleared between systems. Proved: the first report is right, report i shows the sums over systems 1..i."
  },
  {
   "property": "C58",
   "status": "partial",
   "theorems": [
    "Verif.Scorer.ref_words_partial",
    "Verif.Scorer.ref_words_wrong"
   ],
   "note": "False when superfluous optional hypothesis words are forgiven (they are counted as correct reference words)."
  },
  {
   "property": "C59",
   "status": "proved",
   "theorems": [
    "Verif.Net.path_fills_allocation"
   ],
   "note": "As C20."
  },
  {
   "property": "C60",
   "status": "partial",
   "theorems": [
    "Verif.Text.case_buffer_safe_partial",
    "Verif.Text.case_buffer_safe_bytes",
    "Verif.Text.case_buffer_overrun"
   ],
   "note": "False for UTF-8 with a small static buffer (heap overrun, witnesses); proved for buffers of at least 8 bytes and for the other encodings."
  },
  {
   "property": "C61",
   "status": "partial",
   "theorems": [
    "Verif.Text.fold_laws",
    "Verif.Text.case_text_partial",
    "Verif.Text.strcasecmp_zero_iff_partial",
    "Verif.Text.case_change_ignored",
    "Verif.Text.ext_ascii_folds_symbols"
   ],
   "note": "All UTF-8 texts, buffer of at least 8 bytes, every language profile. In extended ASCII the multiplication and division signs, and \u00df and \u00ff, are identified (witness)."
  },
  {
   "property": "C62",
   "status": "proved",
   "theorems": [
    "Verif.Lines.tokens_are_fields"
   ],
   "note": "All encodings, all texts of complete characters, separators any ASCII characters."
  },
  {
   "property": "C63",
   "status": "partial",
   "theorems": [
    "Verif.Lines.first_alternative_partial",
    "Verif.Lines.first_alternative_nested"
   ],
   "note": "Proved for transcripts without nested alternations; false for nested ones (witness: a slash and a later alternative are delivered)."
  },
  {
   "property": "C64",
   "status": "proved",
   "theorems": [
    "Verif.Lines.quoted_tokens"
   ],
   "note": "All encodings; the private copy's allocation is not modelled."
  },
  {
   "property": "C65",
   "status": "partial",
   "theorems": [
    "Verif.Sgml.path_read_back",
    "Verif.Sgml.path_round_trip_partial",
    "Verif.Sgml.semicolon_changes",
    "Verif.Sgml.quote_breaks"
   ],
   "note": "Proved for words without quotes, semicolons and tags; words with semicolons always come back changed and words with quotes come back as other words (both proved). The number formatting, the header lines and the report writer's buffers of 1000 bytes are not modelled."
  },
  {
   "property": "C66",
   "status": "partial",
   "theorems": [
    "Verif.Pad.set_pad_n",
    "Verif.Pad.set_pad_partial",
    "Verif.Pad.set_pad_cent_n_partial",
    "Verif.Pad.set_pad_off_by_one"
   ],
   "note": "In bounds always; the padding before titles is one blank short (proved for all widths, witness given)."
  },
  {
   "property": "C67",
   "status": "partial",
   "theorems": [
    "Verif.Stats.wilcoxon_names_more_speakers_partial",
    "Verif.Stats.wilcoxon_wrong_direction"
   ],
   "note": "False: the code names the system that is better for more speakers, which can be the one the ranks speak against (witness with 40 speakers); proved instead that the system named is better for at least as many speakers."
  },
  {
   "property": "C68",
   "status": "partial",
   "theorems": [
    "Verif.Mapsswe.verdict_swap",
    "Verif.Mapsswe.verdict_direction",
    "Verif.Mapsswe.verdict_criterion",
    "Verif.Mapsswe.constant_difference_unreported",
    "Verif.Mapsswe.no_errors_undefined"
   ],
   "note": "Swap, direction and an exact integer criterion are proved. Fails at the edges: equal differences in all segments are never reported (proved) and no segments at all means reading before a list (proved). Doubles are exact rationals; the square of the statistic is compared."
  },
  {
   "property": "C69",
   "status": "proved",
   "theorems": [
    "Verif.Chan.files_partition",
    "Verif.Chan.files_ok_iff"
   ],
   "note": "Per file and channel the distribution is that of C36; exact condition for the error."
  },
  {
   "property": "C70",
   "status": "partial",
   "theorems": [
    "Verif.Mfa.files_words_partial",
    "Verif.Mfa.single_recording",
    "Verif.Mfa.recordings_compared",
    "Verif.Mfa.last_word_lost",
    "Verif.Mfa.channels_mixed",
    "Verif.Mfa.first_ends_early"
   ],
   "note": "Exact for files of a single recording and channel; in general all words but possibly the last are used. Witnesses: a last recording with one word in each file is never aligned; different channels are aligned with each other; a first file that ends early makes the code read past its words. Assumes each file fits the word array (5000 words at first)."
  },
  {
   "property": "C71",
   "status": "proved",
   "theorems": [
    "Verif.Print.lines_fit",
    "Verif.Print.print_once_partial"
   ],
   "note": "For printing that ends; case conversion must keep the number of bytes. Only the reference, hypothesis and evaluation lines; the last block may exceed the width by its last entry."
  },
  {
   "property": "C72",
   "status": "partial",
   "theorems": [
    "Verif.Print.dump_once_partial",
    "Verif.Print.sequence_limit"
   ],
   "note": "Proved while sequence numbers stay below 999999; from there on sentences are silently left out (proved)."
  },
  {
   "property": "C73",
   "status": "partial",
   "theorems": [
    "Verif.Corresp.speakers_matched_partial",
    "Verif.Corresp.all_speakers_matched",
    "Verif.Corresp.sentences_matched",
    "Verif.Corresp.speakers_lost"
   ],
   "note": "Same names and identifiers always; sentences completely. Speakers common to all systems are lost if they follow one that some system lacks (witness)."
  },
  {
   "property": "C74",
   "status": "proved",
   "theorems": [
    "Verif.Corresp.lattice_counts"
   ],
   "note": "Per set of alignments with the same reference words. The totals over sentences are not modelled."
  },
  {
   "property": "C75",
   "status": "partial",
   "theorems": [
    "Verif.Corresp.multi_print_partial",
    "Verif.Corresp.print_reads_past_end"
   ],
   "note": "Proved for alignments with the same reference words. When identical_refs accepts references of different lengths the print reads past the first alignment (witness, for every number of rounds). Line breaking and padding are not modelled."
  },
  {
   "property": "C76",
   "status": "partial",
   "theorems": [
    "Verif.Refs.own_speaker_partial",
    "Verif.Refs.previous_speaker"
   ],
   "note": "Proved for identifiers that name a speaker. Otherwise the error code is ignored and the utterance is counted for the previous utterance's speaker (witness)."
  },
  {
   "property": "C77",
   "status": "partial",
   "theorems": [
    "Verif.Refs.missing_are_missing_partial",
    "Verif.Refs.missing_unnamed"
   ],
   "note": "Only missing identifiers are listed, but not all of them: the loop runs to the number of references found (witness with an empty list)."
  },
  {
   "property": "C78",
   "status": "proved",
   "theorems": [
    "Verif.LineStyle.line_words"
   ],
   "note": ""
  },
  {
   "property": "C79",
   "status": "partial",
   "theorems": [
    "Verif.LineStyle.times_within",
    "Verif.LineStyle.times_overlap"
   ],
   "note": "Within the token's time always; the order fails: words inside a group get the whole time (witness)."
  },
  {
   "property": "C80",
   "status": "proved",
   "theorems": [
    "Verif.LineStyle.tokens_acyclic"
   ],
   "note": ""
  },
  {
   "property": "C81",
   "status": "partial",
   "theorems": [
    "Verif.NetBuild.network_readings_partial",
    "Verif.NetBuild.network_well_formed_partial",
    "Verif.NetBuild.brace_in_word_crashes",
    "Verif.NetBuild.empty_group_crashes",
    "Verif.NetBuild.empty_alternative_dropped",
    "Verif.NetBuild.open_group_dropped",
    "Verif.NetBuild.deep_nesting_overflows"
   ],
   "note": "Exact language for all well-written texts within the limits on length and nesting and without empty alternatives; the witnesses show that the code fails outside of these (crash, overflow of a 40-byte name, alternative silently lost)."
  },
  {
   "property": "C82",
   "status": "partial",
   "theorems": [
    "Verif.NetBuild.text_alignment_best_partial"
   ],
   "note": "Texts as for C81, standard costs."
  },
  {
   "property": "C83",
   "status": "partial",
   "theorems": [
    "Verif.Uem.uem_reference_kept",
    "Verif.Uem.uem_reference_kept_partial",
    "Verif.Uem.uem_region_of_other_file",
    "Verif.Uem.uem_cut_reported_partial",
    "Verif.Uem.uem_cut_not_reported"
   ],
   "note": "Exact for the comparison the code makes (the region's file name need only be an initial part of the segment's); the property holds where no name is an initial part of another. A cut segment that shares an end with the region is removed without a report (witness)."
  },
  {
   "property": "C84",
   "status": "partial",
   "theorems": [
    "Verif.Uem.uem_hypothesis_kept",
    "Verif.Uem.uem_hypothesis_kept_partial"
   ],
   "note": "As C83 for the file names (same comparison)."
  },
  {
   "property": "C85",
   "status": "partial",
   "theorems": [
    "Verif.Uem.removal_keeps_chain_partial",
    "Verif.Uem.removal_breaks_alternatives"
   ],
   "note": "Proved for words without alternatives; with two alternatives before the removed segment only the first one is linked on (witness)."
  },
  {
   "property": "C86",
   "status": "proved",
   "theorems": [
    "Verif.Uem.gaps_with_uem",
    "Verif.Uem.no_gap_without_reference",
    "Verif.Uem.no_reference_undefined"
   ],
   "note": "For files and channels that have a reference segment; the others get no gap, and with no reference at all the behaviour is undefined, as proved."
  },
  {
   "property": "C87",
   "status": "partial",
   "theorems": [
    "Verif.Uem.gaps_without_uem_partial",
    "Verif.Uem.gaps_without_uem_even",
    "Verif.Uem.hypothesis_without_reference_stops"
   ],
   "note": "Holds iff the number of hypothesis segments of the file and channel is odd; for an even number it is proved that no gap at all is added."
  },
  {
   "property": "C88",
   "status": "partial",
   "theorems": [
    "Verif.Uem.auto_overlap_partial",
    "Verif.Uem.auto_overlap_missed"
   ],
   "note": "No false alarms; complete where the segments of a file and channel stand together (witness of a missed overlap otherwise)."
  },
  {
   "property": "C89",
   "status": "proved",
   "theorems": [
    "Verif.Rfilter.read_is_built",
    "Verif.Rfilter.apply_iff",
    "Verif.Rfilter.rewriting_exists_unique",
    "Verif.Rfilter.untouched"
   ],
   "note": "Where the run stays within memory (exact condition in C95)."
  },
  {
   "property": "C90",
   "status": "proved",
   "theorems": [
    "Verif.Rfilter.always_ends",
    "Verif.Rfilter.few_replacements",
    "Verif.Rfilter.empty_source_never_used"
   ],
   "note": ""
  },
  {
   "property": "C91",
   "status": "proved",
   "theorems": [
    "Verif.Rfilter.lines_preserved",
    "Verif.Rfilter.lines_lost_witness"
   ],
   "note": "Whenever the program returns a result; with COPY_NO_HIT off the newlines go (witness)."
  },
  {
   "property": "C92",
   "status": "partial",
   "theorems": [
    "Verif.Rfilter.notation_partial",
    "Verif.Rfilter.notation_example",
    "Verif.Rfilter.slash_in_source_witness",
    "Verif.Rfilter.slash_in_target_witness",
    "Verif.Rfilter.arrow_without_blank_witness",
    "Verif.Rfilter.slash_first_witness"
   ],
   "note": "Proved for the notation with the side conditions on slashes, brackets and blanks of RuleText; outside of them parts are lost or memory before the line is read (witnesses, one from the shipped example.glm)."
  },
  {
   "property": "C93",
   "status": "partial",
   "theorems": [
    "Verif.Rfilter.read_rule_file_partial",
    "Verif.Rfilter.filter_with_rule_file_partial",
    "Verif.Rfilter.rule_table_witness",
    "Verif.Rfilter.late_maximum_witness",
    "Verif.Rfilter.first_line_witness",
    "Verif.Rfilter.indented_comment_witness",
    "Verif.Rfilter.no_rules_witness"
   ],
   "note": "For lines of at most 130 bytes, at least one rule, fewer rules than the maximum, and the maximum set before the first rule; the witnesses show what happens outside."
  },
  {
   "property": "C94",
   "status": "proved",
   "theorems": [
    "Verif.Rfilter.case_insensitive",
    "Verif.Rfilter.case_sensitive"
   ],
   "note": ""
  },
  {
   "property": "C95",
   "status": "proved",
   "theorems": [
    "Verif.Rfilter.memory_iff",
    "Verif.Rfilter.leading_blank_safe",
    "Verif.Rfilter.left_context_witness",
    "Verif.Rfilter.nul_witness"
   ],
   "note": ""
  },
  {
   "property": "C96",
   "status": "proved",
   "theorems": [
    "Verif.CtmIn.ctm_readings",
    "Verif.CtmIn.early_alternative",
    "Verif.CtmIn.empty_group",
    "Verif.CtmIn.empty_alternative",
    "Verif.CtmIn.files_chained"
   ],
   "note": "The witnesses show what happens outside of the quantifier: alternatives out of order, empty groups and alternatives."
  },
  {
   "property": "C97",
   "status": "partial",
   "theorems": [
    "Verif.CtmIn.ctm_segments_partial",
    "Verif.CtmIn.ctm_segments_group_end",
    "Verif.CtmIn.group_at_end",
    "Verif.CtmIn.word_after_group"
   ],
   "note": "Proved for files that end with a word. For a file that ends with a group the code violates it: the segment always lacks the last token of the last alternative (proved for all such files)."
  },
  {
   "property": "C98",
   "status": "proved",
   "theorems": [
    "Verif.CtmIn.ctm_tokens"
   ],
   "note": ""
  },
  {
   "property": "C99",
   "status": "proved",
   "theorems": [
    "Verif.CtmIn.ctm_graph"
   ],
   "note": ""
  },
  {
   "property": "C100",
   "status": "proved",
   "theorems": [
    "Verif.CtmIn.ctm_comments"
   ],
   "note": ""
  },
  {
   "property": "C101",
   "status": "proved",
   "theorems": [
    "Verif.CtmIn.blank_line_repeats",
    "Verif.CtmIn.blank_line_says_twice",
    "Verif.CtmIn.blank_first_line",
    "Verif.CtmIn.long_field"
   ],
   "note": ""
  },
  {
   "property": "C102",
   "status": "partial",
   "theorems": [
    "Verif.StmIn.stm_line_partial",
    "Verif.StmIn.end_in_start",
    "Verif.StmIn.time_in_names",
    "Verif.StmIn.word_as_label",
    "Verif.StmIn.word_sets_label",
    "Verif.StmIn.open_label",
    "Verif.StmIn.gap_name_memory",
    "Verif.StmIn.short_line"
   ],
   "note": "Proved when the texts of the times do not occur in the fields before (a weaker condition is given), for labelled lines and for lines without '<', and when the memory behind the copied name ends it or the name is no beginning of inter_segment_gap. Outside the code violates it (witnesses)."
  },
  {
   "property": "C103",
   "status": "partial",
   "theorems": [
    "Verif.StmIn.stm_file_partial",
    "Verif.StmIn.stm_no_data"
   ],
   "note": "Proved for all files of the lines covered by C102."
  },
  {
   "property": "C104",
   "status": "proved",
   "theorems": [
    "Verif.StmIn.stm_ids",
    "Verif.StmIn.stm_excluded_ids"
   ],
   "note": "For files of the lines covered by C102."
  },
  {
   "property": "C105",
   "status": "proved",
   "theorems": [
    "Verif.StmIn.stm_attach"
   ],
   "note": ""
  },
  {
   "property": "C106",
   "status": "partial",
   "theorems": [
    "Verif.StmIn.stm_categories_partial",
    "Verif.StmIn.description_lost",
    "Verif.StmIn.id_lost",
    "Verif.StmIn.title_as_description",
    "Verif.StmIn.stray_entry"
   ],
   "note": "Proved for ids, titles and descriptions of one word. The code violates it for texts of several words (proved for all such texts) and makes entries of other comments with quotes (witness)."
  },
  {
   "property": "C107",
   "status": "proved",
   "theorems": [
    "Verif.StmIn.trn_file",
    "Verif.StmIn.trn_no_id",
    "Verif.StmIn.trn_open_id"
   ],
   "note": "The other theorems show what happens to lines outside of the quantifier."
  },
  {
   "property": "C108",
   "status": "proved",
   "theorems": [
    "Verif.Chop.chunks_partition",
    "Verif.Chop.chunks_end",
    "Verif.Chop.chunks_undefined"
   ],
   "note": "The last theorem shows that the exception is needed: the entry before the table is read."
  },
  {
   "property": "C109",
   "status": "partial",
   "theorems": [
    "Verif.Chop.alternations_whole_partial",
    "Verif.Chop.hypothesis_alternation_cut"
   ],
   "note": "Proved for the reference. The code violates it for the hypothesis (witness)."
  },
  {
   "property": "C110",
   "status": "partial",
   "theorems": [
    "Verif.Chop.cut_in_silence_partial",
    "Verif.Chop.cut_within_speech"
   ],
   "note": "Proved for chunks with at least two words of both files; the other chunks may end anywhere (witness)."
  },
  {
   "property": "C111",
   "status": "partial",
   "theorems": [
    "Verif.Chop.own_channel_partial",
    "Verif.Chop.other_channel",
    "Verif.Chop.no_channel"
   ],
   "note": "Proved for chunks with a reference word in them or after them in the channel; the other chunks are scored under the next channel of the reference (witness)."
  },
  {
   "property": "C112",
   "status": "partial",
   "theorems": [
    "Verif.Chop.all_words_scored_partial",
    "Verif.Chop.files_end",
    "Verif.Chop.third_channel_lost",
    "Verif.Chop.last_word_lost",
    "Verif.Chop.last_word_refused",
    "Verif.Chop.channels_not_compared",
    "Verif.Chop.one_word_left"
   ],
   "note": "Proved for files of one or two channels, with more than one word in a second channel at the end. The code drops third channels and such a last word (witnesses)."
  },
  {
   "property": "C113",
   "status": "partial",
   "theorems": [
    "Verif.WtokeNet.network_readings_partial",
    "Verif.WtokeNet.network_well_formed_partial",
    "Verif.WtokeNet.empty_alternative_loses_word",
    "Verif.WtokeNet.empty_alternation_loses_next_word",
    "Verif.WtokeNet.open_alternation_undefined"
   ],
   "note": "Proved for alternations in which only the last of several alternatives may be empty. The code loses words at other empty alternatives (witnesses), and reads past the table without <ALT_END>."
  },
  {
   "property": "C114",
   "status": "partial",
   "theorems": [
    "Verif.WtokeNet.reversed_readings_partial"
   ],
   "note": "For the same lists as C113."
  },
  {
   "property": "C115",
   "status": "partial",
   "theorems": [
    "Verif.WtokeNet.alignment_best_partial"
   ],
   "note": "For the same lists as C113, of fewer than 65534 lines."
  },
  {
   "property": "C116",
   "status": "proved",
   "theorems": [
    "Verif.WtokeNet.construction_ends"
   ],
   "note": ""
  },
  {
   "property": "C117",
   "status": "proved",
   "theorems": [
    "Verif.RttmIn.lexeme_file",
    "Verif.RttmIn.lexeme_no_data",
    "Verif.RttmIn.lexeme_quote",
    "Verif.RttmIn.short_line"
   ],
   "note": "The last theorem shows that the quantifier is needed: shorter lines use buffers that were not filled."
  },
  {
   "property": "C118",
   "status": "partial",
   "theorems": [
    "Verif.RttmIn.lexeme_confidence_partial",
    "Verif.RttmIn.lexeme_confidence_lost",
    "Verif.RttmIn.confidence_lost_case"
   ],
   "note": "Proved for files in which no confidence comes after an <NA>. The code loses all confidences after the first <NA>, of all speakers (proved for all files)."
  },
  {
   "property": "C119",
   "status": "proved",
   "theorems": [
    "Verif.RttmIn.lexeme_numbers",
    "Verif.RttmIn.speaker_numbers"
   ],
   "note": ""
  },
  {
   "property": "C120",
   "status": "proved",
   "theorems": [
    "Verif.RttmIn.speaker_file",
    "Verif.RttmIn.says_one",
    "Verif.RttmIn.turns_before_words",
    "Verif.RttmIn.no_data_modes"
   ],
   "note": "Names of speakers without a segment are bounded by the buffer of the message about it."
  },
  {
   "property": "C121",
   "status": "partial",
   "theorems": [
    "Verif.RttmIn.words_within_partial",
    "Verif.RttmIn.words_own_file_partial",
    "Verif.RttmIn.word_of_other_file",
    "Verif.RttmIn.word_outside"
   ],
   "note": "Proved for words in the order of their times, and for speakers that appear with one file and channel. The code violates the rest (witnesses)."
  },
  {
   "property": "C122",
   "status": "partial",
   "theorems": [
    "Verif.RttmIn.speaker_chain_partial",
    "Verif.RttmIn.lexeme_chain_partial",
    "Verif.RttmIn.lexeme_chain_broken"
   ],
   "note": "Proved for segments of several words. With one word per segment, a segment without tokens interrupts the chain (proved)."
  },
  {
   "property": "C123",
   "status": "partial",
   "theorems": [
    "Verif.CharNet.expanded_readings_partial",
    "Verif.CharNet.nothing_left_crashes",
    "Verif.CharNet.unspellable_units"
   ],
   "note": "Proved for words of complete characters without white space, backslash and opening brace, with something left after hyphens are dropped, of fewer than 2500 bytes, and units not ending in an asterisk; the code crashes or loses characters on the others (witnesses). At most one optionally deletable word per branching point, see C124."
  },
  {
   "property": "C124",
   "status": "partial",
   "theorems": [
    "Verif.CharNet.expansion_ends_partial",
    "Verif.CharNet.expansion_hangs_partial",
    "Verif.CharNet.two_optional_hang",
    "Verif.CharNet.two_optional_text_hangs"
   ],
   "note": "The code violates the statement: it ends exactly if no two optionally deletable words start at the same point; otherwise it runs forever (proved for all networks and for a text)."
  },
  {
   "property": "C125",
   "status": "partial",
   "theorems": [
    "Verif.CharNet.unit_times_partial"
   ],
   "note": "Proved for words as in C123, with exact arithmetic."
  },
  {
   "property": "C126",
   "status": "partial",
   "theorems": [
    "Verif.CharNet.char_alignment_best_partial",
    "Verif.CharNet.char_text_readings_partial",
    "Verif.CharNet.one_optional"
   ],
   "note": "For texts within the limits of C81, words as in C123, expanded networks of fewer than 65534 arcs."
  },
  {
   "property": "C127",
   "status": "partial",
   "theorems": [
    "Verif.CharNet.decode_optional",
    "Verif.CharNet.decode_fragments",
    "Verif.CharNet.leading_hyphen_missed"
   ],
   "note": "Option -D as stated. With -F the code misses a leading hyphen inside parentheses: decode_fragments says exactly what it does, leading_hyphen_missed is the witness."
  },
  {
   "property": "C128",
   "status": "partial",
   "theorems": [
    "Verif.Expand.expansion_means_partial",
    "Verif.Expand.expansion_language",
    "Verif.Expand.expansion_spoken",
    "Verif.Expand.silent_choice_lost",
    "Verif.Expand.silent_word_cuts"
   ],
   "note": "Proved for words that do not stand for the empty sequence. expansion_language and expansion_spoken say exactly what the code makes of all words: the empty sequence is never kept, and a word that stands for nothing else cuts every path (proved for all files)."
  },
  {
   "property": "C129",
   "status": "proved",
   "theorems": [
    "Verif.Expand.expansion_tokens"
   ],
   "note": "The confidence of the new tokens is whatever the parser's members hold, not that of the word."
  },
  {
   "property": "C130",
   "status": "partial",
   "theorems": [
    "Verif.Expand.expansion_returns_partial"
   ],
   "note": "Exact: it ends without error unless some word closes a group that is not open and opens one later, in which case it does not end. So the statement fails for words such as }_{."
  },
  {
   "property": "C131",
   "status": "proved",
   "theorems": [
    "Verif.Expand.replace_substitutes"
   ],
   "note": "For new tokens within the times of the segment; the program exits otherwise."
  },
  {
   "property": "C132",
   "status": "partial",
   "theorems": [
    "Verif.Store.pairs_stored_partial",
    "Verif.Store.title_reference_loses",
    "Verif.Store.title_reference_wrong",
    "Verif.Store.title_reference_perfect"
   ],
   "note": "Proved for different titles other than REFERENCE, columns with at most one hypothesis and one reference word (as the aligner makes them), and times in order. A system titled REFERENCE is scored as if it had said the reference (proved)."
  },
  {
   "property": "C133",
   "status": "partial",
   "theorems": [
    "Verif.Store.insertion_home_partial",
    "Verif.Store.home_unique",
    "Verif.Store.seek_forever",
    "Verif.Store.insertion_search_endless"
   ],
   "note": "Proved for words and segments that do not end before they begin; for a word that does, the search may run forever (witness)."
  },
  {
   "property": "C134",
   "status": "partial",
   "theorems": [
    "Verif.Store.one_system_scores_partial",
    "Verif.Store.two_systems_crash",
    "Verif.Store.several_systems_score_partial"
   ],
   "note": "The code violates the statement. Exact condition proved: with several titles scoring goes through if and only if no system has a superfluous word and all have the same reference words in their aligned groups; otherwise a null pointer is dereferenced. A system alone is always scored."
  },
  {
   "property": "C135",
   "status": "partial",
   "theorems": [
    "Verif.Store.report_of_pairs_partial"
   ],
   "note": "For a system alone with a title other than REFERENCE. Later reports of one run accumulate, see C57."
  },
  {
   "property": "C136",
   "status": "partial",
   "theorems": [
    "Verif.Store.report_of_pairs_partial",
    "Verif.Store.empty_segment_counted_or_not"
   ],
   "note": "Exact: counted are the segments to which a pair belongs, and all reference segments of groups without any pair. So a segment without words is counted only if its whole group has no pair (witness)."
  },
  {
   "property": "C137",
   "status": "partial",
   "theorems": [
    "Verif.Store.group_decision_partial",
    "Verif.Store.difficulty_mod",
    "Verif.Store.difficulty_wraps"
   ],
   "note": "Proved for tables of fewer than 2^64 cells; the size is computed modulo 2^64 (proved), so larger tables may be taken to fit (witness)."
  },
  {
   "property": "C138",
   "status": "proved",
   "theorems": [
    "Verif.Infer.segmentation_sound",
    "Verif.Infer.segmentation_text",
    "Verif.Infer.piece_spelling",
    "Verif.Infer.loop_lists_fixed"
   ],
   "note": "For networks whose words are complete texts, with less than 9998 bytes on any path of optionally deletable words only (C141). That the text is unchanged is stated for readings without null words."
  },
  {
   "property": "C139",
   "status": "partial",
   "theorems": [
    "Verif.Infer.segmentation_complete_partial",
    "Verif.Infer.segmentation_short",
    "Verif.Infer.text_segmentations_partial",
    "Verif.Infer.null_words_hide_words"
   ],
   "note": "Proved for readings without null words, exact up to confidences; from the bytes of text and lexicon without option -D. Null words count as characters, so a word may be missed (witness); with null words all segmentations with runs of at most the longest length are found."
  },
  {
   "property": "C140",
   "status": "partial",
   "theorems": [
    "Verif.Infer.inferred_alignment_best_partial"
   ],
   "note": "For networks without null words on the segmented side, cost functions that do not look at confidences, fewer than 65534 arcs."
  },
  {
   "property": "C141",
   "status": "partial",
   "theorems": [
    "Verif.Infer.join_words",
    "Verif.Infer.join_same_confidence",
    "Verif.Infer.join_overflow",
    "Verif.Infer.confidence_not_mean"
   ],
   "note": "All but the mean: the confidence of three or more words is between the lowest and the highest but not their mean (witness). Optionally deletable words of 9998 bytes or more together overflow a buffer (proved)."
  },
  {
   "property": "C142",
   "status": "partial",
   "theorems": [
    "Verif.Infer.lexicon_words",
    "Verif.Infer.unsorted_lexicon_misses",
    "Verif.Text.lookup_finds_exactly"
   ],
   "note": "Lookup is exact for sorted lexicons; in one that is not sorted words are missed (witness), the program only prints a message. Lines must consist of complete characters."
  },
  {
   "property": "C143",
   "status": "proved",
   "theorems": [
    "Verif.Weigh.time_alignment_overlap"
   ],
   "note": "Whole milliseconds instead of floats; sequences without null words, below the cost limit."
  },
  {
   "property": "C144",
   "status": "proved",
   "theorems": [
    "Verif.Weigh.time_pairs_overlap",
    "Verif.Weigh.time_pairs_null_word"
   ],
   "note": "Whole milliseconds instead of floats; null words are excepted, and the second theorem is the witness that they have to be: they are paired and reported as substitutions."
  },
  {
   "property": "C145",
   "status": "partial",
   "theorems": [
    "Verif.Weigh.loaded_weight",
    "Verif.Weigh.missing_weight_fails",
    "Verif.Weigh.word_weight",
    "Verif.Weigh.unity_weight",
    "Verif.Weigh.weight_file_undefined"
   ],
   "note": "qsort enters as any sorted permutation, atof as a function; growing of the array not modelled; unpaired quotes or more than ten descriptions in a headings comment and compound words of 100 bytes or more are undefined (last theorem)."
  },
  {
   "property": "C146",
   "status": "proved",
   "theorems": [
    "Verif.Weigh.weighted_alignment_minimal",
    "Verif.Weigh.weighted_alignment_minimal_plain",
    "Verif.Weigh.weights_pair_null_word"
   ],
   "note": "Whole thousandths instead of floats; below the cost limit; the last theorem shows that null words are paired and reported as substitutions."
  },
  {
   "property": "C147",
   "status": "proved",
   "theorems": [
    "Verif.Weigh.sync_tags_paired_alike"
   ],
   "note": "Exact costs instead of floats; for fewer than 3333 arcs together."
  },
  {
   "property": "C148",
   "status": "proved",
   "theorems": [
    "Verif.Detail.counted_list",
    "Verif.Detail.table_unique",
    "Verif.Detail.arrow_injective",
    "Verif.Detail.confusion_lines",
    "Verif.Detail.arrow_ambiguous"
   ],
   "note": "qsort on counts enters as any sorted permutation; the threshold is 1 as in every call."
  },
  {
   "property": "C149",
   "status": "proved",
   "theorems": [
    "Verif.Detail.overall_report",
    "Verif.Detail.speaker_report",
    "Verif.Detail.long_pairs_overflow"
   ],
   "note": "The limit on the length of pairs is the buffer of rsprintf; beyond it the behaviour is undefined (last theorem)."
  },
  {
   "property": "C150",
   "status": "partial",
   "theorems": [
    "Verif.Detail.report_percentages",
    "Verif.Detail.accuracy_and_error_partial",
    "Verif.Detail.accuracy_and_error_over"
   ],
   "note": "Exact arithmetic instead of double; error and accuracy can add up to 100.1 (last theorem)."
  },
  {
   "property": "C151",
   "status": "partial",
   "theorems": [
    "Verif.Detail.missed_list_partial",
    "Verif.Detail.missed_table_partial",
    "Verif.Detail.missed_counts_wrong"
   ],
   "note": "Violated by the code: AUTO_LEX_find returns a place in the sorted order that is used as the number of a word, so a repeated word is counted for another one; the words and the total are right."
  },
  {
   "property": "C152",
   "status": "partial",
   "theorems": [
    "Verif.Lur.label_scores",
    "Verif.Lur.label_errors",
    "Verif.Lur.long_label_overflows",
    "Verif.Lur.unclosed_labels",
    "Verif.Lur.text_after_labels"
   ],
   "note": "Proved for lists written as labels in angle brackets, separated by commas, each below 30 bytes. Longer labels overflow a buffer, an unclosed list is read beyond its end (theorems)."
  },
  {
   "property": "C153",
   "status": "partial",
   "theorems": [
    "Verif.Lur.label_report",
    "Verif.Lur.reports_agree",
    "Verif.Lur.many_labels_overflow",
    "Verif.Lur.reports_disagree",
    "Verif.Lur.more_speakers_undefined"
   ],
   "note": "Proved for at most 16 labels; more overflow a buffer (proved). The two reports differ exactly if a speaker has errors without reference words (proved); a later system with more speakers is undefined (witness). Exact percentages instead of double."
  },
  {
   "property": "C154",
   "status": "proved",
   "theorems": [
    "Verif.Lur.definitions_loaded",
    "Verif.Lur.collect_unique",
    "Verif.Lur.collect_items"
   ],
   "note": ""
  },
  {
   "property": "C155",
   "status": "partial",
   "theorems": [
    "Verif.Det.det_curve_partial",
    "Verif.Det.target_words",
    "Verif.Det.det_not_threshold",
    "Verif.Det.det_no_errors_undefined",
    "Verif.Det.det_full_undefined"
   ],
   "note": "Violated by the code: each point is only within one word of either kind of a threshold's (proved for all), not exactly (witness); without wrong words, or with exactly 10000*2^k words of a kind, undefined (proved). Exact confidences."
  },
  {
   "property": "C156",
   "status": "partial",
   "theorems": [
    "Verif.Det.first_curve_own_partial",
    "Verif.Det.later_curves_wrong",
    "Verif.Det.equal_systems_differ"
   ],
   "note": "Violated by the code: true for the first system, false for every later one if an earlier one has a word (both proved)."
  },
  {
   "property": "C157",
   "status": "partial",
   "theorems": [
    "Verif.Det.histogram_counts_partial",
    "Verif.Det.inBin_unique",
    "Verif.Det.histogram_total",
    "Verif.Det.bin_percentage",
    "Verif.Det.negative_in_first_bin"
   ],
   "note": "Proved for confidences that are not negative; those between -1/nbin and 0 are counted in the first bin (proved). Exact confidences that fit into an int."
  },
  {
   "property": "C158",
   "status": "partial",
   "theorems": [
    "Verif.Det.scaled_bins_partial",
    "Verif.Det.scaled_few_words",
    "Verif.Det.scaled_too_many_bins"
   ],
   "note": "All but the number of bins, which is n/(n/bins) (proved), e.g. 39 instead of 20; with fewer words than bins nothing is written. qsort enters as any sorted permutation."
  },
  {
   "property": "C159",
   "status": "proved",
   "theorems": [
    "Verif.Feed.words_fed"
   ],
   "note": "The growth of the array by the factor 1.3 is taken as exact; table sizes below four would not grow."
  },
  {
   "property": "C160",
   "status": "partial",
   "theorems": [
    "Verif.Feed.buffered_alignment_partial",
    "Verif.Feed.table_sizes_partial",
    "Verif.Feed.empty_reference_undefined"
   ],
   "note": "Proved for references with at least one segment; without one the code reads an unset table entry (witness)."
  },
  {
   "property": "C161",
   "status": "partial",
   "theorems": [
    "Verif.Feed.ctm_line_partial",
    "Verif.Feed.ctm_few_fields_undefined",
    "Verif.Feed.ctm_blank_line_undefined"
   ],
   "note": "Violated by the code: a line with one to four fields is copied from a null pointer, the messages for missing fields are unreachable but for the empty line (proved). Fields of 500 bytes or more overflow a buffer (undef in the model). Number conversion is a parameter."
  },
  {
   "property": "C162",
   "status": "partial",
   "theorems": [
    "Verif.Feed.stm_line_partial",
    "Verif.Feed.stm_few_fields_undefined",
    "Verif.Feed.stm_word_as_label",
    "Verif.Feed.last_comment_is_segment"
   ],
   "note": "Violated by the code: fewer than five fields are undefined (proved), a last line without newline is taken as a segment even if it is a comment or blank (witness). Number conversion is a parameter."
  },
  {
   "property": "C163",
   "status": "partial",
   "theorems": [
    "Verif.Diff.text_alignment_partial",
    "Verif.Diff.empty_last_loses_words",
    "Verif.Diff.marks_as_words",
    "Verif.Diff.long_word_overflows"
   ],
   "note": "diff is taken to give an edit script. Violated by the code if the last reference is empty (the rest of the script is dropped, proved), for the words < and > (witness), and for words of 100 bytes (overflow, proved)."
  },
  {
   "property": "C164",
   "status": "partial",
   "theorems": [
    "Verif.Diff.transcripts_alignment_partial",
    "Verif.Diff.repeated_identifier_wrong"
   ],
   "note": "As C163; with a repeated identifier the reference has been cut to its first word (witness). References without alternations."
  },
  {
   "property": "C165",
   "status": "partial",
   "theorems": [
    "Verif.Diff.channel_alignment_partial",
    "Verif.Diff.last_channel_loses_words",
    "Verif.Diff.last_insertion_lost"
   ],
   "note": "Violated by the code: a precedence error in a condition makes the last channel of the table lose the hypothesis words after its last reference word (proved for all). Detection of channels is not modelled."
  },
  {
   "property": "C166",
   "status": "partial",
   "theorems": [
    "Verif.Diff.texts_fit_partial",
    "Verif.Diff.text_overflows",
    "Verif.Diff.longer_text_overflows"
   ],
   "note": "Violated by the code: the test for the size of the buffer is off by two; lengths 100 and 101, or one more than the longest before, overflow (proved)."
  },
  {
   "property": "C167",
   "status": "partial",
   "theorems": [
    "Verif.Reduce.segments_kept_partial",
    "Verif.Reduce.segments_all_kept",
    "Verif.Reduce.alternation_at_end_loses_all"
   ],
   "note": "Violated by the code: a hypothesis channel ending with an alternation, whose marks have the time 0, has all its segments left out (proved for all). Exact times."
  },
  {
   "property": "C168",
   "status": "partial",
   "theorems": [
    "Verif.Reduce.reduced_network_partial",
    "Verif.Reduce.left_out_alternation_loses_word",
    "Verif.Reduce.left_out_alternation_at_end_undefined"
   ],
   "note": "Violated by the code: the <ALT_END> of an alternation left out is kept, and the network then loses the next word or reads beyond the last line (witnesses). Proved for parts without such an alternation. Exact times; the code rounds begin and end of the reference to float."
  },
  {
   "property": "C169",
   "status": "proved",
   "theorems": [
    "Verif.Reduce.skipped_words"
   ],
   "note": "Words between -999999 and 9999999 seconds, exact times."
  },
  {
   "property": "C170",
   "status": "proved",
   "theorems": [
    "Verif.Anovar.friedman_systems",
    "Verif.Anovar.levels_right",
    "Verif.Anovar.analysis_partial"
   ],
   "note": "Exact arithmetic instead of double; qsort enters as any sorted permutation; int products do not overflow."
  },
  {
   "property": "C171",
   "status": "partial",
   "theorems": [
    "Verif.Anovar.friedman_speakers_partial",
    "Verif.Anovar.analysis_partial",
    "Verif.Anovar.more_systems_undefined",
    "Verif.Anovar.ties_missed"
   ],
   "note": "Violated by the code: the correction for ties sums as many counts as there are systems; with fewer systems than speakers it misses ties (witness), with more it reads beyond an array (proved for all tables). Proved for square tables and for tables without ties and at most as many systems as speakers."
  },
  {
   "property": "C172",
   "status": "partial",
   "theorems": [
    "Verif.Anovar.comparison_partial",
    "Verif.Anovar.score_used",
    "Verif.Anovar.named_without_difference"
   ],
   "note": "Violated by the code: t - 1 is used instead of t + 1, so that smaller differences are reported (witness); the table of scores ends at 1%, so that the score is 2.33 for any number of systems from three on (proved)."
  },
  {
   "property": "C173",
   "status": "partial",
   "theorems": [
    "Verif.Anovar.none_named_partial",
    "Verif.Anovar.named_without_difference"
   ],
   "note": "Violated by the code: the if before the comparison has no braces (witness)."
  },
  {
   "property": "C174",
   "status": "partial",
   "theorems": [
    "Verif.Range.table_partial",
    "Verif.Range.other_order_wrong",
    "Verif.Range.fewer_speakers_undefined"
   ],
   "note": "Violated by the code: speakers are matched by position, so that another order in a system gives wrong entries (witness), and a system with fewer speakers uninitialised ones (proved for all)."
  },
  {
   "property": "C175",
   "status": "proved",
   "theorems": [
    "Verif.Range.systems_listed",
    "Verif.Range.speakers_listed"
   ],
   "note": "qsort enters as any sorted permutation; exact sums."
  },
  {
   "property": "C176",
   "status": "partial",
   "theorems": [
    "Verif.Range.range_partial",
    "Verif.Range.range_wrong"
   ],
   "note": "Violated by the code: with all values above 100 the low is reported as 100, with all values negative the high as 0 (proved)."
  },
  {
   "property": "C177",
   "status": "partial",
   "theorems": [
    "Verif.Range.graph_partial",
    "Verif.Range.graph_marks"
   ],
   "note": "Two columns are marked for a mean in the middle between them, none for a mean above 102 (proved). The standard deviation is a parameter."
  },
  {
   "property": "C178",
   "status": "proved",
   "theorems": [
    "Verif.Range.mean_median_variance"
   ],
   "note": "Exact arithmetic; the square root is left out."
  },
  {
   "property": "C179",
   "status": "partial",
   "theorems": [
    "Verif.Range.series_partial",
    "Verif.Range.many_series_overflow",
    "Verif.Range.long_name_overflows"
   ],
   "note": "Violated by the code: more than 32 series, or names of more than 38 bytes, overflow a buffer (proved)."
  },
  {
   "property": "C180",
   "status": "partial",
   "theorems": [
    "Verif.Unified.options_partial",
    "Verif.Unified.std4_alone",
    "Verif.Unified.even_times_off",
    "Verif.Unified.names_lost",
    "Verif.Unified.rest_ignored"
   ],
   "note": "Violated by the code: a test named twice is turned off (proved), std4 forgets the tests named before it, and the report npr is unknown (witnesses). What follows an argument without hyphen is ignored (proved). atoi is a parameter."
  },
  {
   "property": "C181",
   "status": "partial",
   "theorems": [
    "Verif.Unified.formula_always_E",
    "Verif.Unified.formula_is_feedback"
   ],
   "note": "Violated by the code for all command lines: -f is taken by the option for feedback, the branch for the formula cannot be reached."
  },
  {
   "property": "C182",
   "status": "partial",
   "theorems": [
    "Verif.Unified.runs_partial",
    "Verif.Unified.without_pipe_undefined"
   ],
   "note": "Violated by the code: without -p an uninitialised variable decides whether alignments are read (proved for all command lines without -p)."
  },
  {
   "property": "C183",
   "status": "partial",
   "theorems": [
    "Verif.Unified.mcnemar_stars",
    "Verif.Unified.sign_stars",
    "Verif.Unified.normal_stars",
    "Verif.Unified.wilcoxon_stars_partial",
    "Verif.Unified.matched_stars_partial",
    "Verif.Unified.boundary_star",
    "Verif.Unified.anovar_stars",
    "Verif.Unified.summary_agrees"
   ],
   "note": "Violated by the code for the analysis of variance, whose confidences are never computed: three stars for every pair (witness), and for a statistic of exactly 1.96 (witness). Exact arithmetic."
  },
  {
   "property": "C184",
   "status": "partial",
   "theorems": [
    "Verif.Unified.formats_partial",
    "Verif.Unified.formats_overflow"
   ],
   "note": "Violated by the code: the formats overflow from 24 systems on (proved)."
  },
  {
   "property": "C185",
   "status": "partial",
   "theorems": [
    "Verif.AscArgs.options_partial",
    "Verif.AscArgs.spkrmap_no_effect",
    "Verif.AscArgs.width_no_effect",
    "Verif.AscArgs.memory_limit_default",
    "Verif.AscArgs.bad_values_accepted"
   ],
   "note": "Proved for every list of documented options without -generic-cost that is accepted. The code violates the rest: -spkrmap and -l have no effect at all, and the memory limit is 1 GB by default where the help text says 2.0."
  },
  {
   "property": "C186",
   "status": "partial",
   "theorems": [
    "Verif.AscArgs.hypotheses_partial",
    "Verif.AscArgs.title_without_format"
   ],
   "note": "Proved for hypotheses with a format or without a title. The code violates the rest: a title without a format always makes the command line invalid."
  },
  {
   "property": "C187",
   "status": "partial",
   "theorems": [
    "Verif.AscArgs.accepted_iff",
    "Verif.AscArgs.unknown_rejected",
    "Verif.AscArgs.names_documented",
    "Verif.AscArgs.incomplete_rejected",
    "Verif.AscArgs.run_valid",
    "Verif.AscArgs.bad_values_accepted",
    "Verif.AscArgs.time_base_undefined"
   ],
   "note": "The decision is proved for every list of documented options, and run_valid for all arguments. The code violates the rest: -D takes any word, a missing directory before another option and a missing second value are accepted, and -time-base-cost without a hypothesis is undefined behaviour."
  },
  {
   "property": "C188",
   "status": "partial",
   "theorems": [
    "Verif.AscArgs.generic_run",
    "Verif.AscArgs.generic_uem_lost"
   ],
   "note": "Proved except that the format of the ignored reference still turns off the UEM filter, for which a witness is given."
  },
  {
   "property": "C189",
   "status": "partial",
   "theorems": [
    "Verif.Record.trn_groups_partial",
    "Verif.Record.second_system_undefined",
    "Verif.Record.missing_utterance_undefined",
    "Verif.Record.empty_reference_undefined",
    "Verif.Record.repeated_lost"
   ],
   "note": "Proved for one hypothesis that has every utterance. The code violates the rest: a second hypothesis, a missing utterance and an empty reference are undefined behaviour, and a repeated identifier loses an utterance."
  },
  {
   "property": "C190",
   "status": "partial",
   "theorems": [
    "Verif.Record.load_partial",
    "Verif.Record.same_title_lost"
   ],
   "note": "Proved for distinct titles. The code violates the rest: of hypotheses with the same title only the last is scored."
  },
  {
   "property": "C191",
   "status": "partial",
   "theorems": [
    "Verif.Record.only_at_most_one",
    "Verif.Record.only_selects",
    "Verif.Record.only_one_system"
   ],
   "note": "Proved that a number selects at most one group and that every group can be selected. The code violates the part about every hypothesis: the group is scored for one hypothesis only."
  },
  {
   "property": "C192",
   "status": "partial",
   "theorems": [
    "Verif.Record.reference_defined_partial",
    "Verif.Record.generic_undefined"
   ],
   "note": "Proved for runs with a reference. Every run with the generic cost model frees a pointer that was never set."
  },
  {
   "property": "C193",
   "status": "partial",
   "theorems": [
    "Verif.Rpg.C193_same_width_partial",
    "Verif.Rpg.C193_after_double_bar",
    "Verif.Rpg.C193_double_bar_span",
    "Verif.Rpg.C193_letter_n"
   ],
   "note": "Proved for every report up to 300 wide whose formats do not begin with a, do not use n, and have = only between two columns with texts. The code violates the rest: a separation after a row with = is one short, = next to a span or at the end gives edges that are too long, and n prints a message."
  },
  {
   "property": "C194",
   "status": "partial",
   "theorems": [
    "Verif.Rpg.C194_texts_complete_partial",
    "Verif.Rpg.C194_values_kept",
    "Verif.Rpg.C194_overflow"
   ],
   "note": "Proved under the same conditions. A text of more than 300 characters on one line overflows a buffer."
  },
  {
   "property": "C195",
   "status": "partial",
   "theorems": [
    "Verif.Rpg.C195_aligned_partial"
   ],
   "note": "Proved under the same conditions."
  },
  {
   "property": "C196",
   "status": "partial",
   "theorems": [
    "Verif.Rpg.C196_lower_case_partial",
    "Verif.Rpg.C196_blank_after_break"
   ],
   "note": "Proved under the same conditions for texts none of whose later parts begins with a blank. The code violates the rest: the blank is not counted and an empty line is printed."
  },
  {
   "property": "C197",
   "status": "partial",
   "theorems": [
    "Verif.Rpg.C197_format_read",
    "Verif.Rpg.C197_one_reading",
    "Verif.Rpg.C197_not_read"
   ],
   "note": "Proved for formats of fewer than 100 characters without locked columns. A format with any other character makes the call loop for ever, which is proved to be the only case."
  },
  {
   "property": "C198",
   "status": "partial",
   "theorems": [
    "Verif.Rpg.C198_fresh_report_partial",
    "Verif.Rpg.C198_stale_cell"
   ],
   "note": "Proved for reports without spanned columns and equally many columns allocated. The code violates the rest: the text that was left in the last column of a span widens the report."
  },
  {
   "property": "C199",
   "status": "proved",
   "theorems": [
    "Verif.Rpg.C199_breaks_removed"
   ],
   "note": "Proved for all texts."
  },
  {
   "property": "C200",
   "status": "partial",
   "theorems": [
    "Verif.Rpg.C200_iterated_row_partial",
    "Verif.Rpg.C200_missing_values",
    "Verif.Rpg.C200_after_many_columns",
    "Verif.Rpg.C200_fifty_columns"
   ],
   "note": "Proved while no more than 60 columns are allocated. The code violates the rest: after one row with more than 50 columns every such call ends the program, and a format with exactly 50 columns goes past an array when the report is printed."
  },
  {
   "property": "C201",
   "status": "proved",
   "theorems": [
    "Verif.AscSgml.C201_report_read_back",
    "Verif.AscSgml.C201_injective"
   ],
   "note": "Proved for any number of reports in a file, all encodings and line buffers; the alignment must have a result of the system for every token alignment and texts without quotes and newlines."
  },
  {
   "property": "C202",
   "status": "partial",
   "theorems": [
    "Verif.AscSgml.C202_line_read_back",
    "Verif.AscSgml.C202_times_exact",
    "Verif.AscSgml.C202_declared",
    "Verif.AscSgml.C206_violation_quote"
   ],
   "note": "Proved for texts without quotes and newlines, with declaration proved for the times of the reference and the confidences of the system. A word with a quote is not read back."
  },
  {
   "property": "C203",
   "status": "partial",
   "theorems": [
    "Verif.AscSgml.C203_segments_kept",
    "Verif.AscSgml.C203_violation_unsorted",
    "Verif.AscSgml.C201_report_read_back"
   ],
   "note": "Each segment exactly once and the order of the speakers are proved. The order within a speaker is proved (C201) if each speech is one speaker's; otherwise the code violates it."
  },
  {
   "property": "C204",
   "status": "partial",
   "theorems": [
    "Verif.AscSgml.C204_scored_fits",
    "Verif.AscSgml.C204_needs_every_result",
    "Verif.AscSgml.C204_violation_crash"
   ],
   "note": "The result fits the pair for all settings. The code violates the rest: with two systems a word inserted by only one of them crashes the report of the other, and so do alignments without speeches or with an empty first speech."
  },
  {
   "property": "C205",
   "status": "partial",
   "theorems": [
    "Verif.AscSgml.C205_hyp_file_partial",
    "Verif.AscSgml.C205_violation_empty"
   ],
   "note": "Proved if some segment begins with a token of the system; otherwise the name is empty."
  },
  {
   "property": "C206",
   "status": "partial",
   "theorems": [
    "Verif.AscSgml.C206_own_file_partial",
    "Verif.AscSgml.C206_violation_lost"
   ],
   "note": "Proved if the file can be opened; otherwise the report is lost although the message says that it goes to the standard output. In a directory two systems whose names agree after the last slash share a file."
  },
  {
   "property": "C207",
   "status": "partial",
   "theorems": [
    "Verif.ScliteArgs.options_read",
    "Verif.ScliteArgs.options_order",
    "Verif.ScliteArgs.encodings",
    "Verif.ScliteArgs.languages",
    "Verif.ScliteArgs.too_many_hyps",
    "Verif.ScliteArgs.stray_word",
    "Verif.ScliteArgs.ukranian_refused",
    "Verif.ScliteArgs.stray_ignored"
   ],
   "note": "Reading and independence of order are proved for all lists of documented options with at most 40 hypotheses. The 41st is written past the arrays; after a stray word the rest is dropped silently; the language spelled as in the help text is refused."
  },
  {
   "property": "C208",
   "status": "partial",
   "theorems": [
    "Verif.ScliteArgs.reports_named",
    "Verif.ScliteArgs.reports_once_partial",
    "Verif.ScliteArgs.named_twice",
    "Verif.ScliteArgs.confs_named",
    "Verif.ScliteArgs.default_report",
    "Verif.ScliteArgs.asked_reports",
    "Verif.ScliteArgs.reports_written"
   ],
   "note": "Which reports are made is characterised outright: those named an odd number of times after the last none. The claim holds if none is named twice; naming one twice, also through all, drops it."
  },
  {
   "property": "C209",
   "status": "partial",
   "theorems": [
    "Verif.ScliteArgs.accepted_partial",
    "Verif.ScliteArgs.accepted_same",
    "Verif.ScliteArgs.no_pipe_with_stdout",
    "Verif.ScliteArgs.piped_reduce_undefined",
    "Verif.ScliteArgs.exclusive_accepted",
    "Verif.ScliteArgs.tmk_accepted_not_scored",
    "Verif.ScliteArgs.chars_first_only"
   ],
   "note": "The decision is proved as an equivalence, except for piped input alone with -m or -c, which reads through a null pointer. The documented exclusions of -F and -D with -d are not checked; tmk is accepted but never scored; the check for -c looks at the first hypothesis only."
  },
  {
   "property": "C210",
   "status": "partial",
   "theorems": [
    "Verif.ScliteArgs.root_beside",
    "Verif.ScliteArgs.root_placed",
    "Verif.ScliteArgs.root_here",
    "Verif.ScliteArgs.files_distinct_partial",
    "Verif.ScliteArgs.suffixes_distinct",
    "Verif.ScliteArgs.speakers_distinct",
    "Verif.ScliteArgs.name_collides",
    "Verif.ScliteArgs.dir_collides",
    "Verif.ScliteArgs.files_collide"
   ],
   "note": "Distinctness is proved if no root continues another. With -n all hypotheses of a directory share a root, against the help text; with -O those of the same base name."
  },
  {
   "property": "C211",
   "status": "partial",
   "theorems": [
    "Verif.ScliteArgs.run_hyps",
    "Verif.ScliteArgs.run_piped",
    "Verif.ScliteArgs.run_both_undefined"
   ],
   "note": "Proved for hypotheses alone and for piped systems alone. With both, the run always reads a place of the array that was never set."
  },
  {
   "property": "C212",
   "status": "partial",
   "theorems": [
    "Verif.ScliteArgs.status_zero_partial",
    "Verif.ScliteArgs.failed_graph_status_zero"
   ],
   "note": "Status 0 implies that every system was read and aligned; it is also 0 when a graph could not be made."
  },
  {
   "property": "C213",
   "status": "partial",
   "theorems": [
    "Verif.Summary.speaker_row",
    "Verif.Summary.speaker_row_no_words",
    "Verif.Summary.speaker_row_raw",
    "Verif.Summary.speaker_row_weighted_partial",
    "Verif.Summary.speaker_row_weightless"
   ],
   "note": "Percentages and counts are proved for all speakers. In the weighted summary it is proved for a positive weight of the reference words; for weight 0 the code prints unweighted counts as percentages, without asterisk."
  },
  {
   "property": "C214",
   "status": "partial",
   "theorems": [
    "Verif.Summary.sum_row",
    "Verif.Summary.sum_row_raw",
    "Verif.Summary.sum_row_no_words",
    "Verif.Summary.sum_row_weighted_partial",
    "Verif.Summary.weighted_totals",
    "Verif.Summary.sum_row_small_weights"
   ],
   "note": "Proved for percentages and counts. Weighted totals are of type int and cut after every speaker: proved for whole weights, with a bound on the loss in general; speakers with weights below 1 vanish. Without reference words insertions are shown as 0.0."
  },
  {
   "property": "C215",
   "status": "partial",
   "theorems": [
    "Verif.Summary.stats_describe",
    "Verif.Summary.stats_defined",
    "Verif.Summary.stats_columns",
    "Verif.Summary.used_raw",
    "Verif.Summary.used_words_partial",
    "Verif.Summary.used_words_wrong"
   ],
   "note": "Proved if at most one speaker has no reference words, apart from those at the end of the list. With a second one the code drops a speaker with words instead, for all lists of that shape."
  },
  {
   "property": "C216",
   "status": "partial",
   "theorems": [
    "Verif.Summary.by_position",
    "Verif.Summary.by_speaker_partial",
    "Verif.Summary.by_speaker_totals",
    "Verif.Summary.by_speaker_overflow"
   ],
   "note": "Proved for at most 24 systems with the same speakers in the same order. The code matches by position, takes missing speakers as free of errors, and overwrites memory for 25 systems or a system with over five more speakers than the first."
  },
  {
   "property": "C217",
   "status": "proved",
   "theorems": [
    "Verif.Summary.executive_agrees",
    "Verif.Summary.executive_lines",
    "Verif.Summary.executive_nce"
   ],
   "note": "For all lists of systems, in both forms. The logarithm is a parameter."
  },
  {
   "property": "C218",
   "status": "partial",
   "theorems": [
    "Verif.Summary.nce_formula",
    "Verif.Summary.confidence_range",
    "Verif.Summary.counted_words",
    "Verif.Summary.nce_uninformed",
    "Verif.Summary.nce_below_one",
    "Verif.Summary.nce_monotone",
    "Verif.Summary.nce_system",
    "Verif.Summary.nce_column",
    "Verif.Summary.nce_undefined"
   ],
   "note": "All parts are proved with the logarithm as a parameter, if there are correct and wrong words. If all words are correct, or none, the code computes 0 times infinity and converts the result to int."
  },
  {
   "property": "C219",
   "status": "proved",
   "theorems": [
    "Verif.SysRep.table_rectangular",
    "Verif.SysRep.table_lines",
    "Verif.SysRep.columns_aligned"
   ],
   "note": "For all data. The notes below the table are left out; lines with a number that cannot be converted to int are undefined and excepted."
  },
  {
   "property": "C220",
   "status": "partial",
   "theorems": [
    "Verif.SysRep.counts_whole",
    "Verif.SysRep.totals_whole",
    "Verif.SysRep.row_begin",
    "Verif.SysRep.percent_whole",
    "Verif.SysRep.means_fit_partial",
    "Verif.SysRep.percent_cut",
    "Verif.SysRep.mean_cut"
   ],
   "note": "Counts and totals always fit; percentages below 10000; means and medians of counts with two speakers or more. A hundred insertions for one word are shown as ...0.0; the mean of a single speaker with 10^k words, k from 4 to 8, is cut."
  },
  {
   "property": "C221",
   "status": "proved",
   "theorems": [
    "Verif.SysRep.counts_of_words",
    "Verif.SysRep.speaker_percentages",
    "Verif.SysRep.row_begin",
    "Verif.SysRep.row_end",
    "Verif.SysRep.shares_add_up",
    "Verif.SysRep.shares_bound_met",
    "Verif.SysRep.errors_add_up",
    "Verif.SysRep.no_reference_counts"
   ],
   "note": "For all speakers; percentages above 214748300, which overflow int, are excepted."
  },
  {
   "property": "C222",
   "status": "partial",
   "theorems": [
    "Verif.SysRep.sum_cells_partial",
    "Verif.SysRep.totals_whole",
    "Verif.SysRep.sum_no_reference"
   ],
   "note": "Proved if there are reference words. Without them the divisor is 1, and n insertions are shown as 100 n per cent."
  },
  {
   "property": "C223",
   "status": "partial",
   "theorems": [
    "Verif.SysRep.mean_row_partial",
    "Verif.SysRep.median_row_partial",
    "Verif.SysRep.sd_row_partial",
    "Verif.SysRep.sd_one_undefined"
   ],
   "note": "Proved for the values of speakers with reference words, with the square root as a parameter; S.D. for at least two. With one speaker the code divides 0 by 0 and converts the result to int."
  },
  {
   "property": "C224",
   "status": "partial",
   "theorems": [
    "Verif.SysRep.nce_formula",
    "Verif.SysRep.nce_speaker",
    "Verif.SysRep.nce_total",
    "Verif.SysRep.nce_le_one",
    "Verif.SysRep.nce_mono_partial",
    "Verif.SysRep.nce_rewards_wrong",
    "Verif.SysRep.nce_uninformed",
    "Verif.SysRep.nce_total_undefined"
   ],
   "note": "Proved: formula, bound, correct words, total. The code takes log c for wrong words too, so being sure of wrong words raises the value, and confidences that tell nothing do not give 0. The total of a system without wrong words overflows int."
  },
  {
   "property": "C225",
   "status": "proved",
   "theorems": [
    "Verif.Nway.nway_optimal",
    "Verif.Nway.steps_considered"
   ],
   "note": "For all acyclic token graphs and non-negative costs; token comparison must be an equivalence relation. The enumeration of steps moves iterators past the end of lists, undefined in C++; modelled as the usual circular lists behave."
  },
  {
   "property": "C226",
   "status": "proved",
   "theorems": [
    "Verif.Nway.nway_keeps_words"
   ],
   "note": "For all plain word sequences and non-negative costs, word and time based."
  },
  {
   "property": "C227",
   "status": "partial",
   "theorems": [
    "Verif.Nway.order_of_systems_partial",
    "Verif.Nway.order_matters",
    "Verif.Nway.optional_setting_ignored"
   ],
   "note": "Proved for all orders if the words are all optional or all not. Otherwise the code charges missing words by the last system's word only, so the cost depends on the order. The setting of which side may be optional is not used."
  },
  {
   "property": "C228",
   "status": "partial",
   "theorems": [
    "Verif.Nway.cheapest_step_partial",
    "Verif.Nway.fuller_column_not_taken",
    "Verif.Nway.last_of_equal_taken"
   ],
   "note": "A cheapest step is always taken. The number of words of the best step is not recorded when it is found, so a later step with fewer words replaces it."
  },
  {
   "property": "C229",
   "status": "partial",
   "theorems": [
    "Verif.Nway.time_cost_span",
    "Verif.Nway.distances_added_partial",
    "Verif.Nway.only_last_distance"
   ],
   "note": "The span and the missing words are proved. The distances are not added up: the last word's is charged, characterised outright."
  },
  {
   "property": "C230",
   "status": "partial",
   "theorems": [
    "Verif.Nway.word_per_system_partial",
    "Verif.Nway.word_count",
    "Verif.Nway.silent_system_shifts"
   ],
   "note": "Proved if every system has one channel with segments in the group. A silent system is left out and the others move up; the empty elements come last."
  },
  {
   "property": "C231",
   "status": "partial",
   "theorems": [
    "Verif.Nway.report_written_partial",
    "Verif.Nway.report_lost"
   ],
   "note": "Proved if the file can be opened; otherwise the report is lost, although the message promises the standard output."
  },
  {
   "property": "C232",
   "status": "partial",
   "theorems": [
    "Verif.AlignLog.C232_fields_partial",
    "Verif.AlignLog.C232_columns",
    "Verif.AlignLog.C232_lossless",
    "Verif.AlignLog.C232_comma",
    "Verif.AlignLog.C232_blank"
   ],
   "note": "Proved for texts without comma and white space. Nothing is quoted: a comma in a word shifts all columns behind it, and the reader removes blanks."
  },
  {
   "property": "C233",
   "status": "partial",
   "theorems": [
    "Verif.AlignLog.C233_groups_partial",
    "Verif.AlignLog.C233_empty_lost"
   ],
   "note": "Proved for all runs whose groups, segments and words have different numbers and texts without comma and white space. Segments without words are logged but not read."
  },
  {
   "property": "C234",
   "status": "partial",
   "theorems": [
    "Verif.AlignLog.C234_pairs_partial",
    "Verif.AlignLog.C234_last_stored",
    "Verif.AlignLog.C234_two_systems"
   ],
   "note": "Proved if no reference segment is in two groups, i.e. for one system. With two systems the pairs of the first carry the group number of the second, and align2html dies."
  },
  {
   "property": "C235",
   "status": "partial",
   "theorems": [
    "Verif.AlignLog.C235_fields_partial",
    "Verif.AlignLog.C235_sg_lines"
   ],
   "note": "Proved for the lines of the alignment; the lines of the groups have 17 fields."
  },
  {
   "property": "C236",
   "status": "partial",
   "theorems": [
    "Verif.AlignLog.C236_run_partial"
   ],
   "note": "Proved for all groups but those of a gap without hypothesis, which are aligned but not logged."
  },
  {
   "property": "C237",
   "status": "partial",
   "theorems": [
    "Verif.AlignLog.C237_levels",
    "Verif.AlignLog.C237_made_iff_shown",
    "Verif.AlignLog.C237_fatal_hidden"
   ],
   "note": "Proved up to level 7. Level 7 hides fatal errors; above 7 the lines of the log are not made although they would be shown."
  },
  {
   "property": "C238",
   "status": "partial",
   "theorems": [
    "Verif.AlignLog.C238_span_partial",
    "Verif.AlignLog.C238_no_hyp",
    "Verif.AlignLog.C238_no_hyp_case",
    "Verif.AlignLog.C238_ends"
   ],
   "note": "Proved for groups with a segment of the system. Without one an invented segment at 0 makes the duration count from the beginning of the recording. A group of no duration ends the program."
  },
  {
   "property": "C239",
   "status": "proved",
   "theorems": [
    "Verif.Diar.C239_segments",
    "Verif.Diar.C239_sorts"
   ],
   "note": "For every order of ties."
  },
  {
   "property": "C240",
   "status": "proved",
   "theorems": [
    "Verif.Diar.C240_statistics"
   ],
   "note": "Times in whole units; floating point not modelled."
  },
  {
   "property": "C241",
   "status": "proved",
   "theorems": [
    "Verif.Diar.C241_components",
    "Verif.Diar.C241_zero"
   ],
   "note": ""
  },
  {
   "property": "C242",
   "status": "proved",
   "theorems": [
    "Verif.Diar.C242_collars"
   ],
   "note": "For collars greater than zero."
  },
  {
   "property": "C243",
   "status": "partial",
   "theorems": [
    "Verif.Diar.C243_single_partial",
    "Verif.Diar.C243_change",
    "Verif.Diar.C243_outside"
   ],
   "note": "Fails where a turn begins where another ends, or the zones meet the ends of the partition: witnesses."
  },
  {
   "property": "C244",
   "status": "partial",
   "theorems": [
    "Verif.Diar.C244_once_partial",
    "Verif.Diar.C244_accepted"
   ],
   "note": "The check never refuses anything; counted once is proved."
  },
  {
   "property": "C245",
   "status": "partial",
   "theorems": [
    "Verif.Diar.C245_types_partial",
    "Verif.Diar.C245_wrong"
   ],
   "note": "Holds for one type on each side; fails with several: witness."
  },
  {
   "property": "C246",
   "status": "proved",
   "theorems": [
    "Verif.Diar.C246_optimal",
    "Verif.Diar.C246_pairs"
   ],
   "note": "Including the search for the matching, which is shown to end; exact arithmetic; the number of speakers times the largest overlap in units of time is to be below 1E12."
  },
  {
   "property": "C247",
   "status": "partial",
   "theorems": [
    "Verif.Diar.C247_least_partial",
    "Verif.Diar.C247_collar"
   ],
   "note": "True without collar and exclusions; with a collar false: witness."
  },
  {
   "property": "C248",
   "status": "partial",
   "theorems": [
    "Verif.Diar.C248_unchanged_partial",
    "Verif.Diar.C248_rest"
   ],
   "note": "Without regions proved; a last region without a turn after it takes out the rest of the file: witness."
  },
  {
   "property": "C249",
   "status": "proved",
   "theorems": [
    "Verif.Rttm.rttmSmooth_turns",
    "Verif.Rttm.rttmSmooth_idem"
   ],
   "note": "Times in whole milliseconds, so that rounding to three digits changes nothing. Holds by file and speaker."
  },
  {
   "property": "C250",
   "status": "partial",
   "theorems": [
    "Verif.Rttm.rttmSmooth_channels_partial",
    "Verif.Rttm.rttmSmooth_channels_confused"
   ],
   "note": "Proved when no speaker of a file is heard in two channels; otherwise false: witness."
  },
  {
   "property": "C251",
   "status": "partial",
   "theorems": [
    "Verif.Rttm.stmSmooth_cov_partial",
    "Verif.Rttm.stmSmooth_apart",
    "Verif.Rttm.stmSmooth_incomplete",
    "Verif.Rttm.stmSmooth_overlaps"
   ],
   "note": "What was said is kept and only pauses within the smoothing time are filled; but pauses are left and turns may overlap: witnesses."
  },
  {
   "property": "C252",
   "status": "partial",
   "theorems": [
    "Verif.Rttm.stmSmooth_ok_partial",
    "Verif.Rttm.stmSmooth_overlap_first_partial",
    "Verif.Rttm.stmSmooth_overlap_missed"
   ],
   "note": "The program stops only for overlaps, and for one of the first two segments it does; others are missed after a pair was joined: witness."
  },
  {
   "property": "C253",
   "status": "partial",
   "theorems": [
    "Verif.Rttm.mergeWords_partial",
    "Verif.Rttm.mergeWords_lost"
   ],
   "note": "Only words in turns of the speaker, proved for all inputs; all such words when begins are distinct, otherwise words are lost: witness."
  },
  {
   "property": "C254",
   "status": "proved",
   "theorems": [
    "Verif.Rttm.rttmSort_order"
   ],
   "note": "For the lines other than SPKR-INFO; names are numbers."
  },
  {
   "property": "C255",
   "status": "partial",
   "theorems": [
    "Verif.Rttm.rttmSort_types_partial",
    "Verif.Rttm.rttmSort_types_mixed"
   ],
   "note": "Proved when equal times are written alike; otherwise false: witness."
  },
  {
   "property": "C256",
   "status": "proved",
   "theorems": [
    "Verif.Rttm.spkr2sad_speech"
   ],
   "note": "The SPEAKER lines of one file."
  },
  {
   "property": "C257",
   "status": "partial",
   "theorems": [
    "Verif.ArabNorm.hamza_words_partial",
    "Verif.ArabNorm.hamza_tab_paren"
   ],
   "note": "Proved for words separated by spaces; false after a tab and for words in parentheses: witnesses."
  },
  {
   "property": "C258",
   "status": "proved",
   "theorems": [
    "Verif.ArabNorm.hamza_frame"
   ],
   "note": "On code points, which is the same as bytes for valid UTF-8."
  },
  {
   "property": "C259",
   "status": "partial",
   "theorems": [
    "Verif.ArabNorm.tanween_final_partial",
    "Verif.ArabNorm.tanween_twice"
   ],
   "note": "Proved for words separated by spaces that do not end with two tanween; otherwise false: witnesses."
  },
  {
   "property": "C260",
   "status": "proved",
   "theorems": [
    "Verif.ArabNorm.tanween_all"
   ],
   "note": ""
  },
  {
   "property": "C261",
   "status": "proved",
   "theorems": [
    "Verif.ArabNorm.ctmLine_fifth",
    "Verif.ArabNorm.ctmLine_other",
    "Verif.ArabNorm.stmLine_text",
    "Verif.ArabNorm.stmLine_word",
    "Verif.ArabNorm.stmLine_comment",
    "Verif.ArabNorm.filters_default"
   ],
   "note": "For both filters, which share the code."
  },
  {
   "property": "C262",
   "status": "partial",
   "theorems": [
    "Verif.ArabNorm.defArt_txt_partial",
    "Verif.ArabNorm.defArt_default_nothing"
   ],
   "note": "False: without -i nothing is written."
  },
  {
   "property": "C263",
   "status": "partial",
   "theorems": [
    "Verif.Valid.overlap_iff_partial",
    "Verif.Valid.overlap_order_partial",
    "Verif.Valid.overlap_order_counterexample"
   ],
   "note": "Proved for objects of nonzero extent; with one of zero extent the verdict depends on the order of lines: witness."
  },
  {
   "property": "C264",
   "status": "proved",
   "theorems": [
    "Verif.Valid.content_iff",
    "Verif.Valid.partial_iff"
   ],
   "note": "Types are taken to be in capitals."
  },
  {
   "property": "C265",
   "status": "partial",
   "theorems": [
    "Verif.Valid.covered_iff",
    "Verif.Valid.valid_word_one_unit_partial"
   ],
   "note": "Uniqueness for objects of nonzero extent."
  },
  {
   "property": "C266",
   "status": "partial",
   "theorems": [
    "Verif.Valid.noscore_iff_partial",
    "Verif.Valid.noscore_counterexample"
   ],
   "note": "Only regions with <NA> for the speaker are looked at: witness."
  },
  {
   "property": "C267",
   "status": "partial",
   "theorems": [
    "Verif.Valid.ips_sound_partial",
    "Verif.Valid.edit_at_end_rejected",
    "Verif.Valid.ip_other_rejected",
    "Verif.Valid.ips_counterexample",
    "Verif.Valid.ips_stray_counterexample"
   ],
   "note": "Accepted files have the points; the converse is false: an edit at the end of its unit and a point of subtype other are always refused."
  },
  {
   "property": "C268",
   "status": "proved",
   "theorems": [
    "Verif.Valid.valid_mono",
    "Verif.Valid.valid_parts",
    "Verif.Valid.valid_iff_partial"
   ],
   "note": "valid_iff_partial states the whole verdict for files without objects of zero extent."
  },
  {
   "property": "C269",
   "status": "partial",
   "theorems": [
    "Verif.Valid.speaker_declared_partial",
    "Verif.Valid.speaker_other_file_counterexample",
    "Verif.Valid.nonSpeech_rejected",
    "Verif.Valid.nonSpeech_counterexample"
   ],
   "note": "Declared somewhere in the file, but not for the recording: witness; NON-SPEECH is not exempt."
  },
  {
   "property": "C270",
   "status": "partial",
   "theorems": [
    "Verif.Slat.freq_partition_partial",
    "Verif.Slat.freq_equal",
    "Verif.Slat.freq_counterexample"
   ],
   "note": "Proved when two latencies differ; if all are the same the histogram is empty."
  },
  {
   "property": "C271",
   "status": "partial",
   "theorems": [
    "Verif.Slat.load_dies",
    "Verif.Slat.load_last",
    "Verif.Slat.load_all_partial",
    "Verif.Slat.load_lost"
   ],
   "note": "Of lines with the same type, file, channel, subtype, name and begin only the last counts: witness."
  },
  {
   "property": "C272",
   "status": "proved",
   "theorems": [
    "Verif.Slat.compute_conditions",
    "Verif.Slat.compute_means"
   ],
   "note": "In exact arithmetic."
  },
  {
   "property": "C273",
   "status": "proved",
   "theorems": [
    "Verif.Slat.deviation_zero",
    "Verif.Slat.compute_deviation"
   ],
   "note": "On the number under the root, in exact arithmetic."
  },
  {
   "property": "C274",
   "status": "partial",
   "theorems": [
    "Verif.Acomp.split_plain",
    "Verif.Acomp.chain_flatten",
    "Verif.Acomp.split_links_partial",
    "Verif.Acomp.arbeitsende"
   ],
   "note": "With -s exactly; otherwise an s before en is skipped together with the e: Arbeitsende is not split, witness."
  },
  {
   "property": "C275",
   "status": "partial",
   "theorems": [
    "Verif.Acomp.plain_lexicon",
    "Verif.Acomp.greatest_length"
   ],
   "note": "False: the greatest length is taken over the parts of entries with hyphens and underscores only, so a lexicon without these splits nothing."
  },
  {
   "property": "C276",
   "status": "proved",
   "theorems": [
    "Verif.Acomp.one_expansion",
    "Verif.Acomp.no_braces",
    "Verif.Acomp.longest_first",
    "Verif.Acomp.fragment"
   ],
   "note": "For words without an entry of their own and -m at least 1."
  },
  {
   "property": "C277",
   "status": "partial",
   "theorems": [
    "Verif.Acomp.triplets_dead",
    "Verif.Acomp.schiffahrt"
   ],
   "note": "False: the option has no effect on any text, since small letters are looked for in capitals."
  },
  {
   "property": "C278",
   "status": "proved",
   "theorems": [
    "Verif.Acomp.lines_alone",
    "Verif.Acomp.spacing",
    "Verif.Acomp.chopped"
   ],
   "note": "chopped also says that a last line without end of line loses a letter."
  },
  {
   "property": "C279",
   "status": "partial",
   "theorems": [
    "Verif.Acomp.ends_partial",
    "Verif.Acomp.depth_enough",
    "Verif.Acomp.endless"
   ],
   "note": "For a minimum length of at least 1; with 0 and a blank line in the lexicon the search does not end."
  },
  {
   "property": "C280",
   "status": "partial",
   "theorems": [
    "Verif.Acomp.ctm_tiles",
    "Verif.Acomp.ctm_words",
    "Verif.Acomp.ctm_lost"
   ],
   "note": "In exact arithmetic; a record without a word or with empty parentheses disappears."
  },
  {
   "property": "C281",
   "status": "partial",
   "theorems": [
    "Verif.Acomp.optional_partial",
    "Verif.Acomp.optional_fragment"
   ],
   "note": "Not for fragments with -f, for which the text aq( ) is written: witness."
  },
  {
   "property": "C282",
   "status": "partial",
   "theorems": [
    "Verif.Acomp.order_partial",
    "Verif.Acomp.order_counts"
   ],
   "note": "For words without an entry of their own; otherwise the last entry counts: witness."
  },
  {
   "property": "C283",
   "status": "proved",
   "theorems": [
    "Verif.Chfilt.selected"
   ],
   "note": ""
  },
  {
   "property": "C284",
   "status": "partial",
   "theorems": [
    "Verif.Chfilt.pad_channels",
    "Verif.Chfilt.pad_bounds",
    "Verif.Chfilt.pad_disjoint_partial",
    "Verif.Chfilt.pad_counterexample"
   ],
   "note": "That padding makes no overlap only if the segments do not overlap; a segment within another makes the next begin too early: witness. Exact arithmetic."
  },
  {
   "property": "C285",
   "status": "partial",
   "theorems": [
    "Verif.Chfilt.smooth_text",
    "Verif.Chfilt.smooth_apart",
    "Verif.Chfilt.smooth_time_partial",
    "Verif.Chfilt.smooth_counterexample"
   ],
   "note": "That no time is lost only if begins and ends do not go back; a segment within another of its speaker shortens it: witness."
  },
  {
   "property": "C286",
   "status": "partial",
   "theorems": [
    "Verif.Chfilt.exclude_disjoint",
    "Verif.Chfilt.exclude_partial",
    "Verif.Chfilt.exclude_counterexample"
   ],
   "note": "If begins and ends do not go back; a segment within another makes the region too short: witness."
  },
  {
   "property": "C287",
   "status": "partial",
   "theorems": [
    "Verif.Chfilt.gaps_channels",
    "Verif.Chfilt.gaps_keep",
    "Verif.Chfilt.gaps_cover",
    "Verif.Chfilt.gaps_disjoint_partial",
    "Verif.Chfilt.gaps_counterexample",
    "Verif.Chfilt.gaps_empty"
   ],
   "note": "That a gap overlaps no segment only if the segments do not overlap; a channel without segments has no gap either."
  },
  {
   "property": "C288",
   "status": "proved",
   "theorems": [
    "Verif.Chfilt.channels_independent"
   ],
   "note": ""
  },
  {
   "property": "C289",
   "status": "partial",
   "theorems": [
    "Verif.Chfilt.channel_partial",
    "Verif.Chfilt.channel_counterexample"
   ],
   "note": "For numbers of one digit; A12 is in channel A1: witness."
  },
  {
   "property": "C290",
   "status": "proved",
   "theorems": [
    "Verif.TextVal.ctm_validated"
   ],
   "note": ""
  },
  {
   "property": "C291",
   "status": "proved",
   "theorems": [
    "Verif.TextVal.ctm_complaints"
   ],
   "note": "For lines that have a field, do not begin with white space and are no comments, as the property says."
  },
  {
   "property": "C292",
   "status": "partial",
   "theorems": [
    "Verif.TextVal.ctm_token_partial",
    "Verif.TextVal.ctm_token_open",
    "Verif.TextVal.ctm_token_counterexample"
   ],
   "note": "For tokens without points, @ and %. Anything may follow a letter and a point, or be around @ and hesitations; acronyms with one point after several letters are rejected: witnesses."
  },
  {
   "property": "C293",
   "status": "partial",
   "theorems": [
    "Verif.TextVal.english_word",
    "Verif.TextVal.english_fragment_counterexample"
   ],
   "note": "Exact characterisation; fragments of words with hyphens are rejected: witness."
  },
  {
   "property": "C294",
   "status": "partial",
   "theorems": [
    "Verif.TextVal.english_parens_partial",
    "Verif.TextVal.english_optional_partial",
    "Verif.TextVal.english_parens_counterexample",
    "Verif.TextVal.english_case"
   ],
   "note": "For tokens without apostrophe; in parentheses contractions may lack the closing parenthesis or have several, and contractions with o' are rejected: witnesses."
  },
  {
   "property": "C295",
   "status": "partial",
   "theorems": [
    "Verif.TextVal.other_accepts",
    "Verif.TextVal.other_partial",
    "Verif.TextVal.other_counterexample"
   ],
   "note": "Only the first character counts, for all continuations: the class of punctuation ends at its own bracket. Exact characterisation proved."
  },
  {
   "property": "C296",
   "status": "partial",
   "theorems": [
    "Verif.TextVal.stm_validated",
    "Verif.TextVal.stm_record",
    "Verif.TextVal.stm_fields_ignored",
    "Verif.TextVal.stm_short_counterexample",
    "Verif.TextVal.stm_comment_ignored",
    "Verif.TextVal.stm_counterexample"
   ],
   "note": "The words of a text are all checked; the other fields never are, records may be short, and text after two semicolons is not seen."
  },
  {
   "property": "C297",
   "status": "partial",
   "theorems": [
    "Verif.Rttm2Ctm.converted_partial",
    "Verif.Rttm2Ctm.written_read",
    "Verif.Rttm2Ctm.converted_counterexample"
   ],
   "note": "For records without two semicolons next to one another; others are taken for comments: witness."
  },
  {
   "property": "C298",
   "status": "partial",
   "theorems": [
    "Verif.Rttm2Ctm.stopped",
    "Verif.Rttm2Ctm.few_fields",
    "Verif.Rttm2Ctm.nine_fields_partial",
    "Verif.Rttm2Ctm.record_counterexample"
   ],
   "note": "Exact for lines of up to nine fields. The expression is not anchored: anything may be before the type, and a confidence is cut where it stops to be a number: witness."
  },
  {
   "property": "C299",
   "status": "partial",
   "theorems": [
    "Verif.Rttm2Ctm.record_valid",
    "Verif.Rttm2Ctm.output_validated",
    "Verif.Rttm2Ctm.output_counterexample"
   ],
   "note": "Exact condition on the RTTM records; records without confidence or with times such as .5 make CTM files that are rejected: witness."
  },
  {
   "property": "C300",
   "status": "partial",
   "theorems": [
    "Verif.Hub.ctm_kept",
    "Verif.Hub.ctm_sorted_partial",
    "Verif.Hub.ctm_stable_partial",
    "Verif.Hub.ctm_files",
    "Verif.Hub.ctm_separator_counterexample",
    "Verif.Hub.ctm_tags_first",
    "Verif.Hub.ctm_alternatives_counterexample"
   ],
   "note": "Order within a file and stability if the white space after the names of files is the same; otherwise only files are in order: witness. Markers of alternatives are moved before the words: witness."
  },
  {
   "property": "C301",
   "status": "partial",
   "theorems": [
    "Verif.Hub.stm_kept",
    "Verif.Hub.stm_sorted_partial",
    "Verif.Hub.stm_separator_counterexample"
   ],
   "note": "Order and stability if the white space after the names of files is the same: witness."
  },
  {
   "property": "C302",
   "status": "proved",
   "theorems": [
    "Verif.Hub.rt_comment",
    "Verif.Hub.rt_record",
    "Verif.Hub.rt_counterexample"
   ],
   "note": "The witness shows that NA is kept in records without type."
  },
  {
   "property": "C303",
   "status": "proved",
   "theorems": [
    "Verif.Hub.hyp_names"
   ],
   "note": ""
  },
  {
   "property": "C304",
   "status": "partial",
   "theorems": [
    "Verif.Hub.accepted_iff",
    "Verif.Hub.accepted_partial",
    "Verif.Hub.german_refused",
    "Verif.Hub.options_refused",
    "Verif.Hub.accepted_counterexample"
   ],
   "note": "Exact condition proved; as in the usage for other languages than German, without -M and -K. German is refused without -d, and the tests of -K are made of -M: witnesses."
  },
  {
   "property": "C305",
   "status": "proved",
   "theorems": [
    "Verif.Sih.dictionary",
    "Verif.Sih.created"
   ],
   "note": ""
  },
  {
   "property": "C306",
   "status": "proved",
   "theorems": [
    "Verif.Sih.entries_counted"
   ],
   "note": ""
  },
  {
   "property": "C307",
   "status": "partial",
   "theorems": [
    "Verif.Sih.occupancy_partial",
    "Verif.Sih.occupancy_counterexample"
   ],
   "note": "For limits of a third or more; smaller ones may be exceeded: witness."
  },
  {
   "property": "C308",
   "status": "partial",
   "theorems": [
    "Verif.Sih.nearest_prime_partial",
    "Verif.Sih.nearest_prime_counterexample"
   ],
   "note": "From three on; for 0, 1 and 2 the result is not the nearest prime: witness."
  },
  {
   "property": "C309",
   "status": "partial",
   "theorems": [
    "Verif.Sih.written_read",
    "Verif.Sih.read_counterexample"
   ],
   "note": "Round trip proved. Of files that are not complete some are looked at behind the end of a block: witness."
  },
  {
   "property": "C310",
   "status": "partial",
   "theorems": [
    "Verif.Sih.numbered_partial",
    "Verif.Sih.numbered_counterexample"
   ],
   "note": "For files without empty lines; an empty line gives the word before it another number: witness."
  },
  {
   "property": "C311",
   "status": "partial",
   "theorems": [
    "Verif.Slm.short_partial",
    "Verif.Slm.short_witness"
   ],
   "note": "For indices that grow by at most 65000 from one to the next; with 65001 an index is lost: witness."
  },
  {
   "property": "C312",
   "status": "partial",
   "theorems": [
    "Verif.Slm.counts_partial",
    "Verif.Slm.counts_full",
    "Verif.Slm.counts_small",
    "Verif.Slm.counts_witness"
   ],
   "note": "For counts other than zero; the index of zero is given to another count: witness."
  },
  {
   "property": "C313",
   "status": "partial",
   "theorems": [
    "Verif.Slm.alpha_near",
    "Verif.Slm.alpha_lost",
    "Verif.Slm.alpha_met_partial",
    "Verif.Slm.alpha_first"
   ],
   "note": "Bound proved in the range. Outside, a weight met for the first time is never got back, proved for all arrays; met again it is got back unless it is the first of the array. No rounding of floating point."
  },
  {
   "property": "C314",
   "status": "partial",
   "theorems": [
    "Verif.Slm.merge_partial",
    "Verif.Slm.merge_more",
    "Verif.Slm.merge_forever"
   ],
   "note": "For files not all empty; if all are empty the program never ends, proved."
  },
  {
   "property": "C315",
   "status": "partial",
   "theorems": [
    "Verif.Bo.backoff_partial",
    "Verif.Bo.katz_unique",
    "Verif.Bo.backoff_counterexample"
   ],
   "note": "If the memory behind the tables does not have the words looked for; else an n-gram that is not in the model may be found: witness. Logarithms are exact."
  },
  {
   "property": "C316",
   "status": "partial",
   "theorems": [
    "Verif.Bo.decode_render",
    "Verif.Bo.render_unique",
    "Verif.Bo.decode_shift"
   ],
   "note": "What is written is proved for all steps, but the shift by a negative number is not defined by the language whenever an n-gram of two or more words was found."
  },
  {
   "property": "C317",
   "status": "proved",
   "theorems": [
    "Verif.Bo.forced",
    "Verif.Bo.forced_none"
   ],
   "note": ""
  },
  {
   "property": "C318",
   "status": "partial",
   "theorems": [
    "Verif.Mgram.mgrams_partial",
    "Verif.Mgram.mgrams_quit",
    "Verif.Mgram.binary_loses",
    "Verif.Mgram.newline_witness"
   ],
   "note": "For texts with an end of line after the last count; errors for all forms. Binary files always lose the last m-gram, proved; texts without the last end of line give a wrong m-gram or memory that was not set: witness."
  },
  {
   "property": "C319",
   "status": "proved",
   "theorems": [
    "Verif.Mgram.vocab_gt",
    "Verif.Mgram.vocab_top",
    "Verif.Mgram.vocab_exists"
   ],
   "note": ""
  },
  {
   "property": "C320",
   "status": "partial",
   "theorems": [
    "Verif.Gt.discounts_bounded",
    "Verif.Gt.discounts_katz",
    "Verif.Gt.katz_freed",
    "Verif.Gt.zeroton_same"
   ],
   "note": "Proved in full for rational numbers; the rounding and overflow of the numbers of C are not modelled."
  },
  {
   "property": "C321",
   "status": "partial",
   "theorems": [
    "Verif.Perp.perplexity_partial",
    "Verif.Perp.last_lost",
    "Verif.Perp.closed_none",
    "Verif.Perp.level_used"
   ],
   "note": "Proved for the sum of logarithms and all counts; the final division and exponential are not modelled. Texts without an end of line lose their last word, proved for all texts."
  },
  {
   "property": "C322",
   "status": "partial",
   "theorems": [
    "Verif.Perp.list_partial",
    "Verif.Perp.unknown_forces",
    "Verif.Perp.mark_kept"
   ],
   "note": "The last line and the options decide, for all lists that are well written. That a word outside the vocabulary changes nothing is false: it forces backing off from all unknown words, proved. A line without a mark takes that of the line before: proved."
  },
  {
   "property": "C323",
   "status": "proved",
   "theorems": [
    "Verif.Count.wfreq_counts"
   ],
   "note": ""
  },
  {
   "property": "C324",
   "status": "partial",
   "theorems": [
    "Verif.Count.buffers_windows",
    "Verif.Count.ngrams_partial",
    "Verif.Count.greatest_lost",
    "Verif.Count.last_missing",
    "Verif.Count.files_sorted"
   ],
   "note": "No n-gram is counted too often, and every one as often as it occurs unless it is the greatest of a buffer and also stands at its last position; then all its counts in that buffer are lost, proved. Texts without an end of line lose the last n-gram, proved."
  },
  {
   "property": "C325",
   "status": "partial",
   "theorems": [
    "Verif.Tempf.merge_all_partial",
    "Verif.Tempf.limit_one",
    "Verif.Tempf.unseen_witness"
   ],
   "note": "For files that are not empty, provided the files in between are read in full. The program does not close these before it reads them; what is lost then: witness. A limit of one never ends: proved."
  },
  {
   "property": "C326",
   "status": "partial",
   "theorems": [
    "Verif.Fof.stats_partial",
    "Verif.Fof.stats_short",
    "Verif.Fof.stats_error",
    "Verif.Fof.counts_total",
    "Verif.Fof.full_counts",
    "Verif.Fof.more_counts",
    "Verif.Fof.together"
   ],
   "note": "Numbers and frequencies are right when the last n-gram begins a new k-gram, and always for the n-grams of full length. Otherwise the last k-gram is missing: proved. The errors are proved for files out of order anywhere."
  },
  {
   "property": "C327",
   "status": "partial",
   "theorems": [
    "Verif.Interp.train_keeps",
    "Verif.Interp.step_mean",
    "Verif.Interp.fractions_total",
    "Verif.Interp.inTag_last",
    "Verif.Interp.untrained",
    "Verif.Interp.first_witness"
   ],
   "note": "Sums, fixed weights and signs for all iterations, in rational numbers. Means when the tag has items in the part where they are counted. With -test_first the tags are counted in the wrong part; a tag not found there keeps its first weights: proved, with a witness."
  }
 ]
}