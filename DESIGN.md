# Formal model of SCTK (asclite and sclite) in Lean 4

This document says what is modelled, how each property in `properties.jsonl` is
stated and proved, and what has to be trusted.

## Layout

* `lean/Verif/<Topic>/Model.lean` – transcription of the code, function by
  function. Every definition cites the file and lines it models and says where it
  simplifies.
* `lean/Verif/<Topic>/Spec.lean` – the small independent vocabulary used in the
  theorem statements (what an alignment is, what a partition is, …). It never
  mentions the model's helpers.
* `lean/Verif/<Topic>/Lemmas.lean` – helper lemmas.
* `lean/Verif/<Topic>/Props.lean` – the property theorems and, beside each, an
  `example` showing a non-trivial case meets the hypotheses.

## Trusted base

* Lean's kernel (4.33.0). Theorems use at most the three standard axioms
  `propext`, `Classical.choice`, `Quot.sound`; no axiom is added, there is no
  `sorry`, `native_decide` or `bv_decide`.
* The transcription from C/C++ to Lean, done by hand from the source text; nothing
  was compiled or run.
* Machine arithmetic: unless stated otherwise integers are unbounded and `double`
  is replaced by an exact ordered type (`Int` in ticks, or `Rat`). Rounding,
  overflow and NaN are outside the model except where a comment says otherwise.
* Library calls (`qsort`, `bsearch`, LZMA, stdio) enter through their contracts:
  `qsort` returns *some* sorted permutation, LZMA decompression inverts compression,
  `fgets` returns the next at most n-1 characters up to a newline.

## Plan per property

| id | model | how proved |
|----|-------|-----------|
| C01 | array matrix: mixed-radix index, cells, counter | simulation by a finite map over histories |
| C02 | block store with per-block state created/compressed, codec as parameter | refinement to C01's abstract map, any interleaving of GC |
| C03 | block/offset arithmetic | mixed-radix injectivity lemma by induction over dimensions |
| C04 | accounting fields | negation by witness; `_partial` for histories without decompression |
| C05 | GC loop as a fuelled step relation | negation by witness (cyclic state); `_partial` when the victim is compressible |
| C06 | memoised DP over predecessor coordinates | induction on a topological measure; lower bound + attained |
| C07 | traceback loop | induction along the same measure |
| C08 | projection of the traceback | induction |
| C09 | option decoding | case analysis; negation for `both` |
| C10 | the two-row/array DP | equality with recursive Levenshtein minimum over edit scripts; negation for empty strings |
| C11 | decision function | case analysis; negations by witness |
| C12 | decision function | linear arithmetic |
| C13 | grouping loop over sorted segments | invariant; partition of the list |
| C14 | decision function | case analysis |
| C15 | counter record and update operations | invariant over all event lists |
| C16 | association map keyed by concatenated string | induction over load order; negation for `\|` collision |
| C17 | parser to graph, path language | structural induction over expressions; negation for nested optional sequences |
| C18 | tokeniser with fuel | negation by witness; termination on balanced text |
| C19 | DFS listing | negation by witness; reachability `_partial` |
| C20 | per-arc DP table | induction in traversal order: cell = min over path pairs |
| C21 | back pointers and extraction loop | invariant |
| C22 | worklist traversal with counters | invariant of Kahn's algorithm |
| C23 | classification of each hop | case analysis + list induction |
| C24 | fold of counter updates | induction, permutation invariance |
| C25 | decision function | case analysis; negation by witness |
| C26 | slot lists with merge step | invariant over merges |
| C27 | grouping + arg-max loop | loop invariant |
| C28 | bubble passes per run | invariant; permutation, sortedness |
| C29 | chunking loop as a step function | progress measure; negation by witness |
| C30 | group table with capacity | invariant over requests |
| C31 | tie-group loop over a sorted permutation | counting argument |
| C32 | sign counts and direction | antisymmetry; negation for direction by witness |
| C33 | exact binomial sum and normal branch with the table | antisymmetry; exact branch equality; negation for the approximation |
| C34 | rank sums | counting via C31 |
| C35 | the b/e/g state machine | loop invariant: errors so far = errors in emitted segments + pending |
| C36 | sequential assignment loop | induction; partition |
| C37 | four-way case analysis | linear arithmetic |
| C38 | gap search loops | invariant; partition |
| C39 | buffer doubling loop over `fgets` | invariant |
| C40 | byte comparison with character lengths | induction |
| C41 | encoder/decoder arithmetic | arithmetic; negation for code points ≥ 0x20000 |
| C42 | escape / unescape loops | induction; negation for texts containing backslash |
| C43 | node operations on sequences | induction |
| C44 | separation loop | induction |
| C45 | field loop | negation (`_partial` for field 0) |
| C46 | id table lookup | induction |
| C47 | table fill by index | negation by witness; `_partial` for equal speaker order |
| C48 | width arithmetic | arithmetic on lists |
| C49 | paired scan | negation by witness |
| C50 | counter | induction |
| C51 | predecessor relation | well-founded induction |
| C52 | step costs | case analysis against written-out formulas |
| C53 | traceback choice | lexicographic minimality of the chosen predecessor |
| C54 | display form of tokens | list lemmas, round trip of the marks |
| C55 | segmentor reset | negation for all well-formed references |
| C56 | divider search | minimality; undefined behaviour as an outcome |
| C57 | report per system | induction; negation by witness |
| C58 | printed reference words | counting; negation by witness |
| C59 | path storage | length bound on the back-pointer chain |
| C60 | case conversion buffers | capacity invariant; negation by witness |
| C61 | case folding | table facts by kernel evaluation + induction |
| C62 | strtok | uniqueness of the field decomposition |
| C63 | first alternative | induction over flat transcripts; negation for nested |
| C64 | quoted tokens | uniqueness of the field decomposition |
| C65 | SGML path lines | round trip by induction over entries; negations |
| C66 | padding arithmetic | arithmetic; off by one proved |
| C67 | direction of the signed-rank test | negation by witness; direction by counts proved |
| C68 | matched-pairs verdict | swap by simulation and permutation; criterion in whole numbers by algebra over Rat |
| C69 | files and channels | induction over the reference's runs; exact condition as a sublist of keys |
| C70 | combining whole files | induction over recordings; refuted at the edges by witnesses |
| C71 | printed columns and widths | induction over cells; invariant of the line-filling loop |
| C72 | order of the alignment report | induction over the merge of the speakers |
| C73 | speakers and sentences matched across systems | characterisation of the matched rows; witness for lost speakers |
| C74 | lattice error | the marks are a pointwise disjunction; counting lemma |
| C75 | combined print | induction over the number of columns; witness for reading past the end |
| C76 | speakers read off identifiers | spec of the identifier conventions; witness for the ignored error |
| C77 | list of missing references | soundness; witness for incompleteness |
| C78 | words of a line | induction over the line, scanner state |
| C79 | places of tokens | invariant over the parser; witness for overlap |
| C80 | links of tokens | numbering invariant over the parser |
| C81 | networks of texts with alternatives | refinement: the language of the network is the denotation of the text, by induction over the text; invariant over the expansion |
| C82 | texts with alternatives | C81 with the alignment theorem for networks |
| C83, C84 | UEM filter | verdict of the loops over regions, invariant of the links under removals |
| C85 | removal of segments | links of a chain after one removal, induction |
| C86, C87 | inter-segment gaps | parity of the number of ends up to a moment |
| C88 | self-overlap check | induction, neighbours to all pairs |
| C89 | rfilter1 rewriting | refinement to an inductive rewriting relation, index invariant |
| C90 | rfilter1 ends | fuel suffices, every replacement consumes |
| C91 | rfilter1 keeps lines | newline count invariant, rules from files are newline-free |
| C92 | rule notation | round trip over all writings |
| C93 | rule files | line effects, induction over lines |
| C94 | case-insensitive rules | simulation between alike texts |
| C95 | rfilter1 memory | exact condition for the `oob` outcome |
| C96 | CTM readings | invariants between items and inside groups, language of the ends |
| C97 | CTM segments | the same invariants; the end of the file |
| C98 | CTM tokens | induction over lines |
| C99 | CTM graph, any lines | state invariant over all branches |
| C100 | CTM comments | induction over lines |
| C101 | CTM blank lines | buffers keep the fields of the line before |
| C102 | STM lines | first occurrences in lines of fields |
| C103 | STM segments by speaker | invariant over lines, sorted association list |
| C104 | STM identifiers | numbers ascend; digits and last dash are injective |
| C105 | STM chain | induction over segments |
| C106 | STM categories and labels | words of a comment |
| C107 | TRN files | last parentheses; sorted association list |
| C108 | chunks of a channel | postconditions of each loop, measure for termination |
| C109 | alternations and chunks | cuts after plain words are item boundaries |
| C110 | cuts in silences | gaps meet; order of times |
| C111 | label of a chunk | first word from the cut on |
| C112 | CTM against CTM, whole files | induction over files |
| C113 | networks of time-marked words | language of each network operation, induction over items |
| C114 | right-to-left networks | the same with arcs added at the head |
| C115 | best alignment of two lists | C22 applied to C113, reversal of steps |
| C116 | construction ends | lines left over decrease |
| C117 | RTTM, one word per segment | invariant of the loop over the lines |
| C118 | confidences of RTTM words | flag as part of the invariant; negation for all files |
| C119 | identifiers | padding is injective; positions |
| C120 | RTTM, segments of several words | runs of events per speaker, invariant of the loop |
| C121 | words within segments | from C120, order of times |
| C122 | chains of tokens | permutation of neighbouring pairs |
| C123 | expansion into characters, readings | invariant of the traversal that rewrites the network; chain made of one word |
| C124 | end of the expansion | measure if at most one optional word per node; otherwise the list of arcs never ends |
| C125 | times of characters | arithmetic on the chain of units |
| C126 | character alignment | C81, C123 and C20 put together |
| C127 | optionally deletable words, fragments | decision logic stated outright |
| C128 | words with alternatives in RTTM files | substitution of a graph for a token (C131) along the loop, C17 for the words |
| C129 | attributes of the new tokens | invariant of the loop over tokens and segments |
| C130 | end of the expansion | C18 for the texts, the rest is total |
| C131 | replacing a token | both directions by induction over paths |
| C132 | pairs kept once | rows of the store up to order, one step per column |
| C133 | segment of a superfluous word | case analysis of the loop, its period for the endless case |
| C134 | several systems | invariants of stored tokens; exact condition |
| C135 | totals count pairs | C132 with the counters of C15 |
| C136 | segments counted | names of the stored segments |
| C137 | which groups are aligned | decision logic, arithmetic modulo 2^64 |
| C138 | segmentations sound | invariant of the growing network: every arc is a run of the old one |
| C139 | segmentations complete | induction over the recursion: every joinable run that passes gets an arc |
| C140 | best over segmentations | C138, C139 and the alignment theorem of C20 |
| C141 | joining words | fold of the join, spelling as specification |
| C142 | lexicon | lines (C39), fields, binary search (C40) |
| C143 | overlap maximised | cost = durations - merit, then optimality (C20) |
| C144 | gaps are not paired | exchange argument on the optimum |
| C145 | weight lists | lines of a file as a relation; binary search on any sorted permutation |
| C146 | weighted errors minimal | cost = reported weight + null words alone, then optimality |
| C147 | synchronisation tags | exchange argument on the optimum |
| C148 | counted lists | invariant of the table, binary search, order of the printout unique |
| C149 | numbers of the detailed reports | totals of groups (C24), groups as a permutation of the utterances |
| C150 | percentages | integer division |
| C151 | missed words | invariant; witness for the wrong counts |
| C152 | words and errors by label | the loop over the text as a fold over labels, invariant of the table |
| C153 | labelled report | sums over speakers, comparison of the two reports |
| C154 | definitions of labels | relation `Collect`, invariant of the arrays |
| C155 | points of the trade-off curve | invariant: a threshold between the words passed and the others |
| C156 | several systems in one plot | number of rows |
| C157 | histograms of confidences | fold over words, floor |
| C158 | bins of equal numbers of words | induction on the loop |
| C159 | portions of a time-marked file | invariant of the table under refilling |
| C160 | alignment through tables | refinement to the alignment of whole files (`Chan`) |
| C161 | lines of time-marked files | fields of characters |
| C162 | lines of reference segments | fields of characters, restored separators |
| C163 | alignments from `diff` | induction on the script |
| C164 | the same for transcripts | reduction to C163 |
| C165 | the same for channels | induction on segments |
| C166 | buffer for reference texts | invariant of the sizes |
| C167 | segments kept by `-m ref` | first and last word bound all words |
| C168 | hypothesis after `-m hyp` | per item, with C113 |
| C169 | words skipped | induction on items |
| C170 | Friedman's statistic for systems | sum of squares of places with ties, then algebra |
| C171 | Friedman's statistic for speakers | as C170, with the counts summed; witnesses |
| C172 | multiple comparison | squares instead of roots; witness |
| C173 | no system named without difference | witness |
| C174 | table for comparing systems | positions of names |
| C175 | systems and speakers in order | sorted sums |
| C176 | high and low | fold |
| C177 | rows of the range graph | case split per column |
| C178 | mean, median, variance | counting in a sorted list |
| C179 | gnuplot series | lengths of formats |
| C180 | options of sc_stats | fold over rendered options |
| C181 | formula option | invariant of the loop |
| C182 | defined behaviour of sc_stats | invariant of the loop |
| C183 | stars and verdicts | marks of the tables, arithmetic modulo 5 |
| C184 | size of the composite report | lengths of formats |
| C185 | options of asclite | fold over rendered options |
| C186 | hypotheses of the command line | fold over rendered options |
| C187 | invalid command lines | decision stated outright, loop after documented options |
| C188 | generic cost model | checks after the loop |
| C189 | groups of trn files | induction over the ordered set of identifiers |
| C190 | titles of hypotheses | map as a list, last one counts |
| C191 | -only-SG | numbers grow |
| C192 | use of the reference | sequence of uses |
| C193 | all lines of a report equally long | sums over columns, distribution of the rest |
| C194 | texts printed completely | every pass takes a piece; pieces split the text |
| C195 | columns aligned | fixed layout per format |
| C196 | lower case columns | measured size ≥ each part |
| C197 | format strings | parse / render round trip |
| C198 | fresh reports | relation on states kept by all calls |
| C199 | Desc_rm_lf | parts joined with blanks |
| C200 | iterated rows | equal to direct rows |
| C201 | asclite report, sclite reader | round trip of whole files: every system, speaker, segment, word |
| C202 | words of the report | round trip of a line, exact milliseconds, declared values |
| C203 | speakers of the report | permutation by speaker, order by smallest number |
| C204 | scored pairs | the result fits the tokens; crash witnesses |
| C205 | hypothesis file | first token that begins a segment |
| C206 | destination | own file; lost when it cannot be opened |
| C207 | sclite options | reading of a typed option list, independence of order |
| C208 | sclite reports | parity after the last none; what is written |
| C209 | sclite acceptance | equivalence with the documented rules |
| C210 | sclite file names | roots and suffixes, distinctness and collisions |
| C211 | sclite main loop | events of whole runs |
| C212 | sclite exit status | implication and witness |
| C213 | system summary, rows | rounding specification, bounds on sums of rounded numbers |
| C214 | system summary, last row | sums; truncation of weighted totals |
| C215 | system summary, statistics | which speakers enter; violation for lists of any size |
| C216 | summary of several systems | by position versus by name; overflows |
| C217 | executive summary | agreement with the last row |
| C218 | normalised cross entropy | formula, zero, upper bound, monotonicity, undefined cases |
| C219 | asclite summary, shape | lengths of all lines, places of the columns |
| C220 | asclite summary, widths | digits against logarithms |
| C221 | asclite summary, speakers | rounding specification, bounds on sums |
| C222 | asclite summary, last row | sums |
| C223 | asclite summary, statistics | refinement to mean, spread, median |
| C224 | asclite NCE | formula, bound, monotonicity; violations for all logarithms |
| C225 | asclite, several systems, cost | refinement to a minimum over alignments; exact set of steps |
| C226 | asclite, several systems, words | projections of the alignment |
| C227 | asclite, several systems, order | invariance under permutations; witness |
| C228 | asclite, several systems, ties | minimality of the step; witness |
| C229 | asclite, several systems, times | characterisation of the cost; witness |
| C230 | asclite, report of several systems | place of each system; witness |
| C231 | asclite, report of several systems, file | decision; witness |
| C232 | alignment log, lines | round trip of fields; witness |
| C233 | alignment log, groups | writing then reading is the identity on groups with words |
| C234 | alignment log, pairs | writing then reading; witness with two systems |
| C235 | alignment log, several systems | number of fields |
| C236 | alignment log, what is in it | counts of lines |
| C237 | feedback levels | decision logic |
| C238 | duration of a group | characterisation; witness |
| C239 | diarization, segments | sweep over sorted events refines the pointwise specification |
| C240 | diarization, statistics | sums over segments = sums over instants |
| C241 | diarization, components | identities; zero error iff matching at each instant |
| C242 | diarization, collar | pointwise characterisation |
| C243 | diarization, option -1 | pointwise without coincidences; two witnesses |
| C244 | diarization, overlapping turns | never refused; counted once |
| C245 | diarization, types | witness; one type |
| C246 | diarization, mapping | the search (Hungarian method) ends with feasible duals; weak duality |
| C247 | diarization, least error | witness with a collar; partial |
| C248 | diarization, exclusions | witness; without regions unchanged |
| C249 | rttmSmooth, turns | pointwise characterisation, separation, idempotence |
| C250 | rttmSmooth, channels | witness; one channel per speaker |
| C251 | stm2rttm, smoothing | coverage; two witnesses |
| C252 | stm2rttm, overlaps | no false alarm; witness of a missed one |
| C253 | mergectm2rttm | soundness; completeness with distinct begins; witness |
| C254 | rttmSort, order | permutation and sortedness |
| C255 | rttmSort, types | with times written alike; witness |
| C256 | spkr2sad | pointwise |
| C257 | hamzaNorm, words | refinement to a map over words; witness |
| C258 | hamzaNorm, frame | position by position, idempotence |
| C259 | tanweenFilt, final | refinement of four replacements to a relation on words; witness |
| C260 | tanweenFilt -a | no tanween, sublist, counts |
| C261 | Arabic filters, columns | decomposition of the line |
| C262 | def_art, default | writes nothing |
| C263 | rttmValidator, overlap | comparison of neighbours refined to all pairs; witness |
| C264 | rttmValidator, words | decision logic as an equivalence |
| C265 | rttmValidator, one unit | consequence of two checks |
| C266 | rttmValidator, NOSCORE | equivalence; witness |
| C267 | rttmValidator, points | invariant of the marks over three loops; refusals for all files; witness |
| C268 | rttmValidator, options | monotonicity, equivalence for the whole |
| C269 | rttmValidator, speakers | implication; witness |
| C270 | slatreport, histogram | partition of the data; witness |
| C271 | slatreport, lines | what the hash holds after all lines; witness |
| C272 | slatreport, means | refinement to filters and sums |
| C273 | slatreport, deviation | sum of squares |
| C274 | acomp, splitting | search refined to chains of listed words; witness |
| C275 | acomp, lexicon | negation for all lexicons without hyphens |
| C276 | acomp, one expansion | at most one push; maximality |
| C277 | acomp, option -t | equality of outputs for all texts; witness |
| C278 | acomp, table | invariant of the table over all lines |
| C279 | acomp, termination | depth bounded by the length; witness of an endless search for every depth |
| C280 | acomp, CTM | contiguous records; witness |
| C281 | acomp, parentheses | equation; witness |
| C282 | acomp, order | invariance under permutation; witness |
| C283 | chfilt, selection | membership stated outright |
| C284 | chfilt, padding | refinement to a recursive specification per channel; witness |
| C285 | chfilt, smoothing | invariants of the loop; witness |
| C286 | chfilt, exclusion | invariants of the loop; witness |
| C287 | chfilt, gaps | refinement; coverage of all moments; witness |
| C288 | chfilt, channels | non-interference |
| C289 | chfilt, labels | equation; witness |
| C290 | ctmValidator, verdict | exact characterisation; matching by derivatives refined to languages |
| C291 | ctmValidator, complaints | exact characterisation |
| C292 | ctmValidator, tokens | characterisation; negation for all continuations |
| C293 | stmValidator, English words | characterisation of tokens of letters and hyphens; witness |
| C294 | stmValidator, parentheses | invariants of the rules; witnesses |
| C295 | stmValidator, other languages | exact characterisation, negation |
| C296 | stmValidator, records | characterisation; independence of the other fields |
| C297 | rttm2ctm, words | refinement to a filter of records |
| C298 | rttm2ctm, malformed lines | induction over the file; characterisation of lines up to nine fields; witness |
| C299 | rttm2ctm and ctmValidator | exact condition by composition of the two models; witness |
| C300 | sortCTM | permutation, order, stability; witnesses for mixed white space and alternatives |
| C301 | sortSTM | permutation, order, stability; witness |
| C302 | filter of rt-stt | cases on the fields of a record |
| C303 | names of hypotheses | the three forms, by induction over the text |
| C304 | command line of hubscr | exact condition; comparison with the usage; witnesses |
| C305 | hash table of words | refinement to a dictionary, induction over calls and calls in calls, for all hash functions |
| C306 | number of entries | invariant by induction over calls |
| C307 | limit of the occupancy | invariant for limits of a third or more; witness |
| C308 | nearest_prime_up | least prime from three on, with the theorem of Euclid; witness |
| C309 | files of hash tables | round trip; witness |
| C310 | lists of words | induction over the lines; witness |
| C311 | indices in two bytes | round trip by an invariant of the table and of the binary search; witness |
| C312 | table of counts | invariant by induction over calls; witness |
| C313 | alphas in two bytes | bound of the error for all ranges; loss for all arrays |
| C314 | merging of n-grams | refinement to sums of counts, induction over rounds; no end for empty files |
| C315 | probability by backing off | refinement of the tables and the binary search to the back-off recursion; witness |
| C316 | steps of backing off as written | round trip of the code by induction, injectivity |
| C317 | forced backing off | decision logic for all lists and contexts |
| C318 | n-grams to m-grams | refinement to sums of counts, induction over records; loss for all binary files; witness |
| C319 | vocabulary from frequencies | for every result the unstable sort may give |
| C320 | Good-Turing discounts | induction over the lowering of the range; telescoping sum for the counts freed |
| C321 | perplexity of a text | invariant of the context by induction over the words; code of the steps by induction; loss of the last word for all texts |
| C322 | lists of forced backing off | induction over the lines; witnesses |
| C323 | frequencies of words | invariant of the chains by induction over the text, for all sizes of the table |
| C324 | n-grams of a text | refinement of the buffers to the n-grams of the text, induction over fillings and over the loop that writes; loss for all buffers of a kind |
| C325 | merging of temporary files | induction over the number of files, on top of C314; witness; no end for a limit of one |
| C326 | statistics of k-grams | induction over the file, the runs of equal k-grams as invariant; the last k-gram is missing otherwise |
| C327 | weights for interpolation | induction over the iterations, sums over models and items in rational numbers; witness for -test_first |

## What is modelled

Line numbers are in the comment of each definition; this is the summary.

| topic | code |
|-------|------|
| `LevMatrix` | asclite `arraylevenshteinmatrix.*`, `compressedlevenshteinmatrix.*` (all of both; LZMA is a parameter) |
| `AscGraph` | asclite `graph.cpp` (hypothesis/reference mode: start/end, predecessors, costs, pruning, traceback), `levenshtein.cpp`, option decoding |
| `Token` | asclite `token.cpp` (edit distance, equivalence, display form) |
| `Segmentor` | asclite `ctmstmrttm_segmentor.cpp`, `timedobject.cpp` overlap, `speech.cpp` next/since |
| `Scorer` | asclite `stt_scorer.cpp`, `speakermatch.cpp`, the counters of `rawsys_reportgenerator.cpp` |
| `Net` | sclite `net_adt.c` (construction of linear networks, traversal), `net_dp.c` (two-network alignment, path extraction), `word.c` distance |
| `Text` | sclite `text.c` (encodings, comparison, case conversion), `word.c` `equal_WORD2` |
| `Lines` | sclite `text.c` line reading, tokenising, fields, first alternative |
| `Split` | sclite `text.c` separate characters, escape/unescape, `word.c` word formats |
| `Sgml` | sclite `scores.c` path lines written and read |
| `Score` | sclite `scores.c` groups and counting, `path.c` sorting by time |
| `Rover` | sclite `net_dp.c` combination of many networks, `net_adt.c` arc insertion/deletion, `rover.c` voting and output |
| `LList` | sclite `llist.c` |
| `Pad` | sclite `pad.c` |
| `Stats` | sclite `order.c` ranking, `signtest.c`, `sentmcn.c`, `wilcoxon.c` decisions, `statdist.c` binomial sum and normal table |
| `Mapsswe` | sclite `mtchprs.c` segmentation, pairing of sentences and verdict; `statdist.c` Z statistic (its square, exact rationals) |
| `Chan` | sclite `stm2ctm.c` `segment_hyp_for_utt`, the loop over utterances and over files; `fillmrks.c` flags and boundaries. Buffered reading is in `Feed`, the reduction of the hypothesis in `Reduce`. |
| `Mfa` | sclite `mfa.c` `find_common_silence`, `gap_at_times`, `mfalign_ctm_files` and the same loop in `rover.c`; `ctm2ctm.c` `overlap`. Not: refilling of the word arrays of long files |
| `Print` | sclite `path.c` `PATH_n_print` (reference, hypothesis and evaluation lines), `scores.c` order of `dump_SCORES_alignments`. Not: headers, lines of numbers, HTML |
| `Corresp` | sclite `corresp.c` `find_matched_grp`, `find_matched_paths`, `identical_refs`, `lattice_error`, order of columns in `PATH_multi_print`; `rank.c` `init_RANK_struct_from_SCORES` (which value goes where). Not: line breaking and padding, `AUTO_LEX`, totals over sentences |
| `Refs` | sclite `align.c` `remove_id`, `extract_speaker`, `load_refs`, the loop of `align_trans_mode_dp` up to the aligner. `qsort` by contract, `bsearch` as in `Text`, line reading as in `Lines`, case conversion as a parameter. Not: LABEL and CATEGORY comments, sizes of the identifier and speaker buffers |
| `Topo` | asclite `segment.cpp` `ToTopologicalOrderedStruct` (both), `isLastToken`, the deletions in the destructor. Tokens are numbers, the links of a token a list |
| `Ident` | asclite `id.cpp`, the constructors that call it |
| `LineStyle` | asclite `linestyle_inputparser.cpp` `ParseWords` (both), `SeparateBySlash`, `TokeniseWords`, `Attach`, `Transition`, `FilterSpace`, the times given by `ParseWordsEx`. Texts are lists of words between `strtok` calls. Not: `ReplaceChar`, `ExpandAlternationSpeechSet`, `ReplaceTokenWith`, confidences, what `BuildToken` does with a word |
| `NetBuild` | sclite `Network_create_from_TEXT`, `expand_alternates`, `Network_merge_network`, `Network_delete_arc`, `change_node_name`, `reset_net_pointer` (the bits it sets), `find_next_TEXT_token`, `find_next_TEXT_alternation`. Texts are bytes; exact for one-byte encodings and well-formed UTF-8, GB is not modelled. The recursion of `reset_net_pointer` visits every path, its cost is not modelled. Freed memory: names of freed nodes and arcs are not reused. |
| `Uem` | asclite `UEMFilter::FindElement`, `ProcessSingleSpeech`, `ProcessSpeechSet` (times of the gaps per file and channel), `Speech::RemoveSegment`, `Token::UnlinkNextToken`, `UnlinkPrevToken`, `SpkrAutoOverlap::ProcessSingleSpeech`; groups from the model `Segmentor`. Not modelled: `LoadFile` (reading numbers from text), the destruction of removed segments, names and numbers given to gaps, the order of files among the gaps, `HasInterSegmentGap` (references that already contain gaps). |
| `Rfilter` | rfilter1: `main` (without options and debugging output), `apply_rules2`, `get_rules2` with `r_process_data_line` and `r_process_aux_line`, `sstok2`, `substr_to_str`, `get_comment_flag`, `valid_data_line`, `remove_comments`, `del_eol`, `prtrim`, `prtrim2`, `pltrimf`, `atobool`. Bytes are ASCII for case (C locale). Not modelled: the rule directory and environment expansion (`expenv.c`), the fields `name` and `desc` and the error texts, overflow of `atol`, memory exhaustion. |
| `CtmIn` | `CTMInputParser::loadFile` (asclite), with `BuildToken`, `Segment::AddFirstToken`, `AddLastToken`, `Token::AddNextToken`, `AddPrecToken`. `ParseString` (times) is a parameter. Token and segment numbers stand for pointers. Not modelled: opening and splitting the file into lines, the identifiers of segments, confidence values beyond their text, log output; buffers of earlier lines are kept as in the code, an unset buffer or a field of 255 bytes gives `undef`. |
| `StmIn` | `STMInputParser::loadFile` with `CompareToISGCaseInsensitive` and `LowerCase`, `TRNInputParser::loadFile` (asclite). `ParseString` (times) is a parameter; `ParseWords` is left out (see `LineStyle`): segments keep the text given to it, and `attach` is given the predicate "has tokens". The memory behind the unterminated copy of a speaker's name is a parameter (`junk`). `std::map` is a list sorted by key. Fewer than five fields or a field of 255 bytes gives `undef`. |
| `Chop` | `chop_WTOKE_2`, the loops over chunks, channels and files of `align_ctm_to_ctm` (ctm2ctm.c), `locate_boundary` (fillmrks.c). The alignments themselves are in `Net`. Times are exact, indices unbounded (`base_len *= 2` does not overflow), the tables hold whole files (less than 5000 lines); entry 0 and entries after the last word are `undef` when read; loops that are given a bound by the model end in `hang` when it is reached, which is shown not to happen. |
| `WtokeNet` | `Network_create_from_WTOKE`, `Network_add_net_to_tail`, `Network_add_net_to_head` (net_adt.c), on top of `NetBuild` (merging, deleting arcs), `Net` (adding arcs, alignment) and `Split` (text parts). Node names and visited bits are left out; reading a line after the last one is `undef`. |
| `RttmIn` | `RTTMInputParser::loadFileLexeme`, `loadFileSpeaker`, `Attach` (rttm_inputparser.cpp), acceptance by `Segment::AddFirstToken`/`AddLastToken`. Conversion of times is a parameter; tokens of a one-word segment are those of `LineStyle`. Buffers that `sscanf` did not fill are `undef` when used. |
| `CharNet` | `expand_words_to_chars` with `set_word_*`, `decode_opt_del`, `decode_fragment` (align.c 440-480, 631-780), `Network_traverse` with a callback that changes the network (net_adt.c 97-249). Tags, weights and names of nodes are left out; times are rational. A traversal that does not end is `hang` for every fuel. |
| `Expand` | `ExpandAlternationSpeechSet`, `ReplaceChar` (linestyle_inputparser.cpp 83-124, 436-449), `Segment::ReplaceTokenWith` (segment.cpp 308-356), `LinkTokens`, `UnlinkTokens`, `UnlinkNextToken` (token.cpp 141-201). `GetText` and `IsOptional` are parameters (see `Token`), parsing is `LineStyle`, listing is `Topo`. Segments are chains, as the readers of RTTM files make them. |
| `Store` | `Alignment::AddGraphAlignedSegment`, `LookRight`, `GetOrCreateAlignedSpeechFor` (alignment.cpp 69-191), `GetOrCreateAlignedSegmentFor` (alignedspeech.cpp 52-69), `GetTokenAlignmentFor`, `AddTokenAlignment` (alignedsegment.cpp 59-89), `AddAlignmentFor`, `GetAlignmentFor` (tokenalignment.cpp/.h), access to columns (graphalignedsegment.cpp 227-303), `GetRefSegmentByTime`, `GetDifficultyNumber` (segmentsgroup.cpp 85-175), `OverlapWith`, the loops of `STTScorer::Score`, the decision of `AlignHypRef` (recording.cpp 603-837). Maps from pointers are lists in order of creation, statements are up to order. Limits given in gigabytes are taken as numbers of cells; `SetSegGrpID` and logging are left out. |
| `Infer` | `load_TEXT_LIST` with column 0, `WORD_in_TEXT_LIST` (text.c 1653-1736), `append_WORD_no_NULL` (word.c 184-217), breadth-first `Network_traverse` (net_adt.c 97-249), `recursive_connect`, `Network_fully_connect_cond` (net_adt.c 609-658), the parts of `infer_word_seg_algo1`/`algo2` that make the networks (align.c 211-386). The characters come from `CharNet`, the alignment from `Net`. Conversion of case is left out; times and confidences are rational numbers. |
| `Weigh` | `wwd_WORD_rover`, `wwd_time_WORD`, `wwd_weight_WORD` (word.c 52-150), `load_WWL`, `Weight_wwl`, `get_weight_from_WW` (wwscr_f.c 260-281, 324-459, 543-577), `lookup_word_weight` (align.c 735-749), `add_PATH_score` on an alignment path. Costs are whole thousandths (rover: hundred thousandths), `atof` a parameter, `qsort` any sorted permutation. |
| `Detail` | alex.c (all but `AUTO_LEX_dump`, `AUTO_LEX_get`, `AUTO_LEX_get_c`), sc_dtl.c `score_dtl_overall`, `score_dtl_spkr` (as the report of one group) and the `locate_` functions, the buffer of `rsprintf`, the counting of missed words in `lattice_error` (corresp.c 358-363). `qsort` is any sorted permutation; percentages exact; layout and `score_dtl_sent` left out. |
| `Lur` | scores.c `parse_input_comment_line`, `load_comment_labels_from_file`; lur.c `compute_label_scores`, `create_report` and `create_N_lur_report` as to the numbers (not the layout, means and deviations: see `Stats`), with the sizes of the buffers. `find_PATHLABEL_id` is a parameter. |
| `Det` | det.c: `make_SCORES_DET_curve` (the arrays and tables), `Compute_ROC`, `binned_confidences`, `make_scaled_binned_confidence` (the bins). Confidences are exact numbers; the scale `ppndf`, the files for gnuplot and the test for confidences are left out. |
| `Feed` | sclite fillmrks.c: `fill_WTOKE_structure`, `fill_mark_struct`, `locate_WTOKE_boundary`; stm.c: `read_stm_line`, `parse_stm_line`, `fill_STM`, `locate_STM_boundary`, `fill_STM_structure`, `expand_STM`; stm2ctm.c: the loop of `align_ctm_to_stm_dp` on top of `Chan`. A file is its list of lines with the end-of-file flag; `atof` and the conversion of case are parameters. Not: marks for overlapping speech, `has_conf`, freeing of memory. |
| `Diff` | sclite align.c: `process_diff_line`, the loops of `align_text_to_stm`, `align_trans_mode_diff`, `align_ctm_to_stm_diff` over references and words, the buffer of `create_word_lists` and `dump_STM_words`. The output of `diff -y` is any edit script, each line as its tokens; words wider than the columns of `diff` are left out. Not: temporary files, the detection of channels, `readpipe`. |
| `Reduce` | sclite stm2ctm.c:33-108: the choice of segments and words under `-m ref` and `-m hyp`, on top of the networks of `WtokeNet`. Exact times (`float` in the code). |
| `Anovar` | sclite anovar.c:44-178, 242-420 and rank.c:105-142: the analysis of variance by ranks, for systems and speakers, and the multiple comparison of systems; on top of the ranks of `Stats`. `double` is `Rat`, roots are compared by squares. Not modelled: printing. |
| `Range` | sclite rank.c:19-156 (table of percentages, overall order) and range.c (high, low, graph rows, gnuplot formats and names), statdist.c:630-669. The standard deviation (a square root) is a parameter of the graph rows. Not modelled: titles and rulers of the tables. |
| `Unified` | sclite sc_stats.c:66-115, 301-442 (options and what main makes of them; `atoi` is a parameter) and rank.c:433-720 (entries and formats of the composite report), with the confidences of the tests. Not modelled: the layout of the report and the file names. |
| `AscArgs` | asclite main.cpp:121-1047 (options, checks, the properties, filters and reports that follow; `atoi` is a parameter). Not modelled: the messages, the property `general.feedback.level` (the level itself is kept), the defaults of `Properties::Initialize` that `main` does not replace. |
| `Record` | asclite trntrn_segmentor.cpp (all), recording.cpp:226-245 (loading; what is read from a file is a parameter), 625-634 (loop over systems with trn files), 708-717 (-only-SG), the uses of the member `references` in recording.cpp:28-377, 630, 174. Not modelled: the speaker map check itself, the reports. |
| `Rpg` | sclite rpg.c: 68-117, 230-338 (formats, next piece), 348-741 (the printed report), 743-856 (edges, separations), 858-986 (spans, iterated rows, rows), 1020-1047. The rounding of the shares is a parameter that has to satisfy `Shares`; `F_ROUND` in exact arithmetic does. Not modelled: debugging output, Desc_dump_ascii_report, locked columns (a distinct outcome), growth of the arrays of rows. |
| `AscSgml` | asclite sgml_reportgenerator.cpp (all), sgml_reportgenerator.h 40-85, reportgenerator.cpp 24-32; sclite scores.c load_SCORES_sgml 340-757 as far as asclite's reports use it, scores.c 759-790, sgml.c 19-88. Times are whole milliseconds printed as decimals; confidences are texts; `std::sort` is stable in the model; the conversion by `atof` is read as the exact decimal. Not modelled: growth of the speaker table, weights (not written by asclite), attributes that asclite does not write. |
| `ScliteArgs` | sclite.c (proc_args 391-757, main 143-389), text.c TEXT_set_encoding and TEXT_set_lang_prof 387-443, the suffixes of report files (scores.c, sc_dtl.c, lur.c). The contents of reports, the aligners and the reader of the pipe are parameters here (modelled in other topics). Not modelled: the fixed buffers for file names, reports sent to a root of `-`. |
| `Summary` | scores.c print_system_summary 1057-1545, print_N_system_summary 1555-1698, print_N_system_executive_summary 1705-1829, compute_SCORE_nce 1839-1922; statdist.c 594-671; det.c hyp_confidences_available; sctk.h F_ROUND, pct. The numbers in the cells; the layout is in `Rpg`. Doubles are rationals, the logarithm is a parameter, sorting is a parameter. Left out: merges and splits (always 0, do_sm is never set), the warning on confidences out of range. |
| `SysRep` | rawsys_reportgenerator.cpp 30-197, 201-238, 314-844, 919-932; rawsys_reportgenerator.h 28-75; statistics.cpp 20-75; statistics.h GetSum. Counting is in `Scorer`. Doubles are rationals, logarithm and square root parameters, sort an insertion sort. Left out: the notes below the table; the logarithm of 0 in the widths (taken as 0). |
| `Nway` | graph.cpp 234-287, 369-399, 588-666, 755-808, 847-1066, 1328-1334, 1408-1444 with `align.genericmethod=true`; ctmstmrttm_segmentor.cpp 119-136; sgml_generic_reportgenerator.cpp 36-140. Tokens, streams and the memoised recursion are those of `AscGraph`. Iterators moved on from `end()` arrive at `begin()` (undefined in C++, true of circular lists). The attributes of a word in the report are one text. |
| `AlignLog` | token.cpp 422-508; segmentsgroup.cpp 268-480; graphalignedsegment.cpp 193-225; the log lines of stt_scorer.cpp 127-155 and recording.cpp 416-417, 569-595, 622-623, 650-663, 820-830; alignment.cpp 157-161; logger.cpp 50-99, logger.h 66; align2html-main.pl 71-195 with the parts of SegmentGroup.pm, Segment.pm and Token.pm it calls. Printed confidences are given. The durations align2html computes, and its pages, are not modelled; a Perl hash is a list in order of creation. |
| `Diar` | md-eval.pl 589-600, 1899-1905, 1954-2015, 2034-2241, 2261-2315, 2449-2470, 2669-2899: segments, statistics, collars, option -1, exclusion zones, mapping of speakers with the search for a matching. Times are whole units larger than `$epsilon`; `$INF` is infinite. Not modelled in `Diar`: the words (`next unless SCOREABLE`), the reading of RTTM and UEM files, metadata scoring, printing. |
| `Rttm` | rttmSmooth.pl 16-58, stm2rttm.pl 82-118, mergectm2rttm.pl 42-163, spkr2sad.pl 39-45, rttmSort.pl 6-20, 39-85. Times are whole milliseconds, names numbers. Not modelled: the parsing of lines, comments, SPKR-INFO lines, the pipe from mergectm2rttm to the other tools, printing. |
| `ArabNorm` | hamzaNorm.pl 30-93, tanweenFilt.pl 54-104, def_art.pl 44-48, 78-120 (choice of the format only). Texts are code points. Not modelled: the rules of def_art, its lexicon, the options. |
| `Valid` | rttmValidator.pl 46-63, 77-82, 113-166 (lines already split into fields), 228-267, 376-382, 395-871, 879-907. Times are whole nanoseconds, types in capitals. Not modelled: the forms of the fields, subtypes, orthography and confidence (187-226, 269-371), messages. |
| `Slat` | slatreport.pl 53-57, 196-380. Exact arithmetic, scaled to integers. Not modelled: printing, pictures, the square root. |
| `Acomp` | acomp.pl 85-108, 140-320. Words of the lexicon are given by their first field; times exact. Not modelled: options, files, the STM format, the rounding of `%.2f`. |
| `Chfilt` | chfilt.pl 753-755, 780-921, 945-952: what happens to the segments. Times exact in any unit. Not modelled: the normalisation of the text, options, `makeChannel`, the rounding of `%.2f`; the gaps at the end and the last padding are done in the order of appearance of the channels, not in alphabetical order. |
| `TextVal` | ctmValidator.pl 65-175, STMList.pm 67-167, 169-204. Regular expressions are written as terms, matched by derivatives, and proved to match their languages. Lines without their end of line; characters stand for bytes. Not modelled: options, files, messages. |
| `Rttm2Ctm` | rttm2ctm.pl 36-50. The expression is matched field by field: every part but the last is followed by white space. Not modelled: options, files. |
| `Hub` | hubscr.pl 211-400, 531-534. What Perl takes a text for as a number is a parameter with whole numbers for values. The white space after the name of a record of one field is taken without the end of line. Not modelled: calls of programs, versions, messages, `sort` by locale. |
| `Sih` | slm_v2 sih.c 45-164, 177-278, read_wlist_si.c 25-53. The hash function is a parameter. Rates are fractions that are compared exactly. Loops without end, too many calls in calls and looks behind the end of a block are outcomes of their own. Not modelled: overflow, sharing of strings with the caller, warnings, versions of files, the lengths of the arrays for lines and words. |
| `Slm` | slm_v2 short_indices.c 47-100, lookup_index_of.c 28-53, two_byte_alphas.c 41-114, mergeidngram.c 135-227. Integers do not overflow. Logarithms of alphas are whole numbers of some unit, the number got back from the range is multiplied by the number of elements, and rounding of floating point is not modelled. The rounds of the merging are limited by a parameter, `none` if it is used up; theorems are for all values of it. Not modelled: reading and writing of files (get_ngram.c), where an n-gram cut off at the end of a file is left out; the allocated lengths of tables. |
| `Bo` | slm_v2 arpa_bo_ng_prob.c 25-204, decode_bo_case.c 28-62, calc_prob_of.c 57-97. Probabilities and weights are logarithms, whole numbers of some unit. Indices are those that get_full_index gives (for which see C311). What lies in memory behind a table is a parameter. Not modelled: bo_ng_prob.c, which has the same search but counts and discounts, rounding, overflow of the case for contexts of more than 15 words, the check for closed vocabularies. |
| `Mgram` | slm_v2 ngram2mgram.c 165-355, wfreq2vocab.c 105-200. Words of n-grams are numbers (strings with -words). The result of qsort is any permutation in order. Not modelled: parsing of records, overflow, the lengths of the arrays (see C319 below), counts of `-top` below zero. |
| `Gt` | slm_v2 compute_discount.c 27-118. Rational numbers without rounding; division by zero gives values of its own, compared as in C. Not modelled: overflow of the products of counts, values left in the array beyond the final range, messages. |
| `Perp` | slm_v2 perplexity.c 25-450, gen_fb_list.c 29-112, rr_libs/rr_feof.c 24-31. The probability of a word after a context is any function (see `Bo`), as a logarithm that is a whole number; the lookup of words is any function. Not modelled: annotations, warnings, the final division and exponential, words of a thousand letters or more, lines of the list longer than 1023 letters. |
| `Count` | slm_v2 text2wfreq.c 51-212, text2idngram.c 36-52, 241-331. Words of text2wfreq are lists of bytes, `char` has a sign; words of text2idngram are numbers. `qsort` is any function that puts n-grams in order. Not modelled: words of 500 letters or more, texts of fewer than n words, a table or buffer of size zero, overflow of counts, the merging of the temporary files (see `Tempf`). |
| `Tempf` | slm_v2 idngram.h 42-67, 93-316. The rounds are `Slm.merge`, whose steps are the same for files that are not empty. What is read of a file in between is a parameter. Not modelled: frequencies of frequencies (264-308, 320 on), names and removal of files. |
| `Fof` | slm_v2 idngram2stats.c 81-192, for one length k at a time, the full length by itself (143-146). Of the table printed the columns of numbers; not the suggested sizes. Not modelled: reading of the file. idngram.h 264-345 has the same steps but is not modelled by itself. Numbers do not overflow. |
| `Interp` | slm_v2 interpolate.c 67-94, 519-607, for the weights of one tag. Rational numbers without rounding; the number of iterations, which depends on perplexities, is a parameter. Not modelled: options and files, perplexities, weights read with -in_lambdas (any first weights are allowed instead). |

## Findings: where the code does not do what a user expects

Each is proved as a theorem about the model (see `MANIFEST.json` for names).

* C04: the compressed table's byte count drifts upwards by five at each decompression.
* C05: the garbage collector never ends when the oldest block does not shrink under compression.
* C09/C14/C58: asclite's setting `both` for optional deletion never forgives a superfluous hypothesis word; and
  where such words are forgiven they are counted as correct reference words.
* C10: the edit distance to an empty text is 0.
* C11: two word beginnings match when one occurs anywhere in the other.
* C13: a reference segment is lost when a speaker's segments are not in time order, or when it has zero length.
* C16: speaker alignment keys collide when a name contains `|`; lines of more than six fields write out of bounds.
* C25: fragment matching is not symmetric when both words are fragments; an empty text reads out of bounds.
* C27: averaged confidences that are all zero (even at alpha 1), more than 49 different words in a slot, and a chunk
  without words make ROVER exit.
* C32/C33: from 21 differing speakers (sentences) on, every uneven split is called significant: the continuity
  correction is a multiplication by 0.5 instead of an addition. m against m + 1 is always "significant" for m ≥ 10.
* C32: the sign test names the system with the better total, not the one better on more speakers; with equal totals the
  verdict depends on the order of the systems.
* C41: the UTF-8 encoder rejects code points from 0x20000 on.
* C42: word parts with backslashes, a final asterisk, only one tag or an empty value do not come back.
* C43: copying a list onto itself empties it.
* C45: every field but the first is returned empty.
* C48: centring a text of 2000 or more bytes overruns a buffer.
* C54: the text `(-)` is displayed as `)`.
* C55: using a segmentor for a second hypothesis set is undefined behaviour.
* C56: a segment starting and ending at zero leads to undefined behaviour.
* C57: asclite's per-system report adds up the counts of the systems before.
* C60: the case conversion writes outside of a small buffer for UTF-8.
* C61: extended-ASCII folding identifies × with ÷ and ß with ÿ.
* C63: the first-alternative filter delivers parts of nested alternations.
* C65: words with semicolons or quotes are changed by the SGML file.
* C66: the title padding is one blank short.
* C67: the Wilcoxon test can name the system against which the ranks speak.
* C68: if all segments have the same difference the variance is 0 and the matched-pairs test reports nothing; with no segments it reads before the start of a list. The resynchronisation inside `test_comp_sents` tests `strcmp != 0` where equality is meant, so it never moves either index.
* C36: with the reference reduced to some utterances, the hypothesis words after the last utterance kept are scored nowhere; a missing `<ALT_END>` makes `segment_hyp_for_utt` run past the words of the channel. `reset_WTOKE_flag(.., "ignore")` changes nothing.
* C38, C70: a system without words left in a channel contributes the next word of its file to each further chunk; the silence duration is only required of the first system; a last recording with one word per file is never aligned; channels are not compared; a first file that ends early is read past its end.
* C29, C72: `PATH_n_print` loops for ever when a word other than the last is wider than the line; asterisks for unpaired words of more than 40 bytes are read from before their string; sentences with sequence numbers from 999999 on are left out of the report.
* C47, C49, C73, C75: `init_RANK_struct_from_SCORES` pairs speakers by position, not by name; `identical_refs` tests `w > num` where `w >= num` was meant, so a reference that is a beginning of the other is accepted or memory past the alignment is read; `find_matched_grp` stops at the first speaker some system lacks; the combined print then reads past the first alignment.
* Read but not modelled: `dump_paths_of_SC_CORRESPONDENCE` never sets `to_print` back within a speaker and adds the last sentence's counts again for sentences that were not analysed; `scores_are_diff` reads every alignment up to the length of the first.
* C46, C76, C77: a last line without newline is dropped by all transcript readers; `extract_speaker`'s error is ignored, so the utterance goes to the previous speaker; the list of missing references is cut at the number of references found; a repeated reference is accepted if it is a beginning of the first.
* C19: `ToTopologicalOrderedStruct` is a depth-first preorder. It stops at last tokens, so in `a { b / @ }` the word `b` is never listed and takes no part in the alignment; it adds first tokens without a test, so in `{ a / @ } b` the token `b` is listed twice and `~Segment` deletes it twice; in `a { b / c } d` it lists `d` before `c`.
* C50: identifiers repeat only after 2^w objects.
* C17: an alternative of two or more items that can be empty loses the empty choice (`c { { a / @ } { b / @ } } c` has no path `c c`); `a { @ @ } b` has no path at all; `{ / }` becomes a word `/`; a whole transcript that can be empty has no empty path.
* C18: `} {` and every line that closes a group that is not open and opens one later makes `ParseWords` recurse for ever; this is the exact condition. Words after an unclosed `{` are dropped silently.
* C79: a word inside a group is given the whole time of the token, so it overlaps the words before and after the group.
* C81: an alternative that is empty or blank is dropped, so `{ a / }` is not optional (`@` has to be written); a group without any alternative, or a brace inside of a word, makes the program read through a null pointer; a group that is not closed is dropped with the rest of the line, silently; names of nodes are made in an array of 40 bytes, which ten nested groups in a text of 61 bytes overflow.
* C83, C84: `FindElement` accepts a region whose file name is a proper initial part of the segment's file name: a region for `a1` applies to `a10`, too. (The code for gaps compares for equality.)
* C83: a reference segment that begins with a region and ends after it, or begins before and ends with it, is silently removed instead of being reported.
* C85: `RemoveSegment` does not reset its inner iterator, so that of several words before the removed segment only the first is linked to the following words.
* C86: a file that the UEM file lists but that has no reference segment gets no gaps; if the filter leaves no reference segment at all, the segmentor dereferences an iterator of an empty set.
* C87: without a UEM file every hypothesis segment adds the two outer times once; if their number in a file and channel is even, these cancel and no gap at all is made. A hypothesis in a file without references stops the program.
* C88: the check compares neighbouring segments only; an overlap with a segment of another channel in between is missed.
* C92: a slash in a bare source or target is taken for the mark of the context, so ` /SLASH => SLASH` (shipped in example.glm) loses its target; `[a]=>[b]` without a blank after the arrow loses its target; a line beginning with such a slash makes `r_process_data_line` read the byte before its buffer.
* C93: the rule table has `max_nrules` entries but is filled from entry 1, so with exactly `max_nrules` rules the last one is written behind the end; MAX_NRULES after the first rule does not enlarge the table; a file without rules leads to a write through an uninitialised pointer; the first line is always used up as the definition of the comment flag; an indented comment makes the program fail; a line longer than 131 bytes is split silently; keywords are found anywhere in a setting line; another format than NIST1 stores an uninitialised rule.
* C91: with COPY_NO_HIT off newlines are deleted as well.
* C95: a left context is compared with the bytes before the line buffer when the source stands too close to the start of the line (csrfilt.sh avoids this by a leading blank); a NUL at the start of a line makes `main` read the byte before its buffer.
* C97: the last token of the last alternative is added to the segment of a group only when a further word follows, so a group at the end of a CTM file loses one ending (its alternative cannot be matched as a complete path); the word after a group is given the segment of the group as its parent.
* C101: a line with fewer than five fields is only logged, then the buffers of the previous line are used again, so a blank line doubles the word before it; at the start of the file the buffers are uninitialised; `%s` has no width, fields of 255 bytes or more overrun their buffers.
* C96: an empty group crashes the program (or swallows the next word when it is the first thing in the file); an empty last alternative turns the following word into an alternative; words of different files and channels are linked to each other.
* C102: the transcript is taken to begin after the first occurrence of the text of the end time behind the first occurrence of the text of the start time, so `1.25 25` adds the word 25; a first word in angle brackets is taken for the label, any later one sets the label; a label that is not closed makes all fields words; the copy of the speaker's name in `CompareToISGCaseInsensitive` is not terminated, so the result depends on leftover memory; lines of fewer than five fields use unset buffers.
* C104: an excluded segment gets the identifier of the scored one before it, and the number 2^64-1 when it is the first one of its speaker.
* C106: a word counter is used as field counter, so a description of several words is lost, a title of two words becomes the description, and an entry with an id of two words is dropped; any comment with quotes in its third word makes an entry without type.
* C108: with an alternation at the beginning of the reference and hypothesis words that all come earlier, the (never filled) entry 0 of the table is read.
* C109: only the reference's alternations are respected. Marks with `*` for times get the time 0, which sends the search back to the first word of the reference: one word is then aligned with all hypothesis words before the alternation.
* C110: when the backward search reaches the first word of one file it returns success without looking at the gaps, so in speech without common silences (a recogniser 0.1 s late is enough) chunks of one or two words are cut that do not belong together; the doubling of the length is only tried if both searches end at the first word.
* C111: the label is that of `word[ref_begin]`, also when the reference words of the channel are used up.
* C112: third channels are dropped; `ref_end_chan1+1 < ref->n` overlooks a second channel that is the last word of the table; the checks for a premature end use `>` for `>=`, so one word left over reads entries that were not filled; channel names are not compared.
* C113: an empty alternative that is not the last loses the first word of the next one (`<ALT_BEGIN> <ALT> b <ALT_END>`, `b <ALT> <ALT> c`): the index is advanced over the mark when the null word is made and once more afterwards. `<ALT_BEGIN> <ALT_END>` swallows the following word and treats the ones after it as another alternative. Without `<ALT_END>` the entries after the last line are read.
* C118: `use_confidence` is set to false by the first `<NA>` and never set back, so all later words of all speakers lose their confidence.
* C120: a word goes to the segment of the last SPEAKER line, wherever its times are; files with all SPEAKER lines first are refused or misread. A file without data is accepted in this mode and refused in the other. The message about a word without a segment is printed into 255 bytes.
* C121: segments are kept by speaker only, so a word of another recording goes into the segment of this one; only the first and the last word are checked against the times.
* C122: `loadFileLexeme` attaches each segment to its immediate predecessor, so a word `@` (no tokens) interrupts the chain; `loadFileSpeaker` skips empty segments.
* C123: words of which nothing is left (`--` with hyphens dropped, `()` with -D) give a network without a stop node, which is read through a null pointer; a word of a single hyphen is kept. Units lose backslashes, an asterisk at their end, and everything from an opening brace on. Tags and the fragment mark of an expanded word are lost.
* C124: the callback appends the new arcs of an optionally deletable unit to the list that is being traversed, and such a unit is expanded again and again because its text with and without parentheses differ; it ends only because the next element is read first. With two optionally deletable words at the same point (`{ (ab) / (cd) }` with -c -D) sclite does not end.
* C127: `(-ab)` is not taken for a fragment with -D -F, while `-ab` and `(ab-)` are.
* C128: `ReplaceTokenWith` looks only at the first and last tokens of what was parsed, not at whether it can be skipped. So in `a {_b_/_@_} c` the choice of saying nothing is lost, and a word `{_@_}` leaves a gap no path crosses (the segment then has no complete path; if it is the only word, no first and no last token).
* C128: the test `find_first_of("{_")` and `find_last_of("_}")` is met by any text with an underscore: `New_York` becomes two words. A text with `#` and no underscore or braces keeps it.
* C129: the confidence of the new tokens comes from members of the parser that are set only when confidences are read, not from the word; in speaker mode they are never set. `GetText` drops the hyphens of fragments, so tokens made from a fragment are not fragments.
* C130: a word `}_{` makes `ParseWords` call itself with the same text for ever (see C18).
* C132: a system titled `REFERENCE` shares its key with the reference words, so nothing it says is stored and every reference word is found correct; a superfluous word makes the scorer crash.
* C133: `GetRefSegmentByTime` asks whether the segment overlaps the word, the loop whether the word overlaps the segment; for a word that ends before it begins the answers differ and the loop does not end.
* C134: an insertion is stored for its own system only, but `STTScorer::Score` asks for every system and dereferences the missing entry. With two or more systems any insertion, or any group skipped for one of them only, crashes the program.
* C136: reference segments without words are counted only if their whole group has no pair; their group identifier is then never set, though it is logged.
* C137: the size of the table wraps at 2^64.
* C139: `connect_factor` limits the number of arcs joined, null words included, while it is computed as a number of characters; `ab` is not found in `a @ b`.
* C140: `infer_word_seg_algo2` makes copies converted to lower case but builds the networks from the texts as they are, and does so when case is to be kept; the lexicon is never converted. A lexicon that cannot be opened ends the program with status 0. The lexicon is loaded once per process.
* C141: confidences are averaged pairwise, ((c1+c2)/2+c3)/2; `rsprintf` has a buffer of 10000 bytes for optionally deletable words.
* C142: words out of order are only reported, but the lookup is a binary search.
* C144: with times or weights a null word can be paired with a word and is reported as a substitution: the standard costs have a separate price that prevents this (C23), these have not.
* C145: the words of a weight file are not converted to lower case; a headings comment with an unpaired quote makes the program read from address 1; compound words are copied into 100 bytes without a check. `do_weighted_score` is never called.
* C147: the cost 15.0 for synchronisation tags (word.c 103-106) can never be returned.
* C149: a confusion pair of 10000 bytes or more overflows the buffer of `rsprintf`, which checks the length only after writing.
* C150: one error in 2000 words is reported as 0.1% errors and 100.0% accuracy.
* C151: `lattice_error` uses the result of `AUTO_LEX_find`, a place in the sorted order, as an index by arrival: missing "b", "a", "a" is listed as "b" twice and "a" once. The threshold test of `AUTO_LEX_printout` looks up the count through `sort` once too often; with the threshold 1 of all calls this does not matter.
* C152: a label of 30 bytes or more overflows `hs`; a list of labels that is not closed by a bracket is read beyond its end; text after the closing bracket is taken for further labels.
* C153: more than 16 labels overflow the format buffers of 50 bytes. In the report on several systems a speaker with errors but without reference words counts as 0% of errors, in the report on one system it is left out. A later system with more speakers than the first is undefined behaviour.
* C155: `Compute_ROC` was taken over from a language with arrays from 1: the lowest confidence of either kind is never looked at, so points are not those of a threshold (witness), but at most one word off (proved). Without wrong words, and with exactly 10000, 20000, ... words of a kind, the program writes outside of its arrays (proved).
* C156: the numbers of words are not set back from one system to the next, so every later curve contains zeros in place of the words of the systems before (proved for all).
* C157: confidences between -1/nbin and 0 are counted in the first bin, because the conversion to `int` cuts towards zero.
* C158: the number of bins is n / (n / 20), up to 39; with fewer than 20 words nothing is written.
* C160: with a reference file without segments `align_ctm_to_stm_dp` looks at the first entry of a table that has not been set (witness).
* C161: the messages for an empty channel, time or word cannot be reached: a missing field is copied from NULL before (proved for all lines). A single `;` begins a comment here, while references need two.
* C162: fewer than five fields are read through NULL; a comment or blank line that ends the file without a newline is taken as a segment; any first word that begins with `<` is taken as label.
* C163: the rest of the script is dropped if the last reference is empty; the words `<` and `>` are confused with the marks of `diff`.
* C164: taking tokens destroys the stored reference, so a second hypothesis with the same identifier is scored with its first word only, and everything after is shifted.
* C165: `r== r_end + (r_end==stm->num)?-1:0` does not mean what its indentation says; in the last channel of a file insertions after the last reference word are not counted.
* C166: `strlen > len+1` should be `strlen >= len`; texts of exactly 100 or 101 bytes overflow the buffer.
* C167: the time span of a hypothesis is taken from its first and last line; if the last line is `<ALT_END>` with the times `*`, its end is 0 and all segments are left out.
* C168: leaving out an alternation does not set the flag of its `<ALT_END>`; building the network then starts an alternation there, losing the next word, or reading beyond the last line.
* C171: `calc_adjust_for_blks` sums the counts of ties up to the number of systems instead of speakers: ties are missed with fewer systems than speakers, and memory beyond the array is read with more.
* C172: the comparison uses b t (t - 1) / 6 where its comment says b t (t + 1) / 6; the table of scores ends at 1%, so that the score does not grow beyond 2.33.
* C173: the `if` before the multiple comparison has no braces; only the clearing of the (still clear) table depends on it.
* C174: the percentages of the groups are matched with the names of the first system by position; missing groups are read uninitialised.
* C176: the search for high and low starts from 0 and 100.
* C179: the format of a series has 100 bytes and the file names 50 without a test.
* C180: names toggle bits; `std4` assigns; the report `npr` of the usage message is unknown.
* C181: two tests for `-f`, the second of which cannot be reached.
* C182: `pipein` is not initialised.
* C183: `compute_anovar` allocates the table of confidences and never writes it, so that every pair has three stars.
* C184: formats of 100 bytes for up to 40 systems.
* C185: `-spkrmap` assigns the value that the variable has; the variable of `-l` is never read; the memory limit is 1 by default, 2.0 in the help text.
* C186: `-h file title` takes the file name as the title and then rejects the title.
* C187: the test of the word after `-D` is always true; `-time-base-cost` without a hypothesis reads the first element of an empty vector.
* C188: a trn reference, which is ignored, turns off the UEM filter.
* C189: `TRNTRNSegmentor::Reset` fills the set of identifiers only for new references, although iterating empties it; the loops in `Next` have no bound.
* C190: the hypotheses are kept in a map from titles.
* C191: the counter of identifiers goes on from one hypothesis to the next.
* C192: with the generic cost model the member `references` is never set, and the destructor deletes it.
* C193: a separation that is attached after a row prints one character for `=` where the lines have two; `=` before a spanned column or at the end is counted in the width but not printed; the letter `n` is accepted and prints a message into the table.
* C194: the buffer for the next piece of a text has 300 characters and is not checked; the blanks for padding are 300 too.
* C196: a blank after `//` is left out when a text is measured, but not when it is printed.
* C197: an unknown character in a format is never skipped (endless loop); a format of 100 characters or more overflows `format_str`; a separator without a column before it shifts the separators against the letters; the text of a locked column is read through a pointer that is never set.
* C198: `Desc_erase` leaves the texts of the cells, and the first pass over the sizes looks at the last column of a span.
* C200: the iterated calls end the program when more than 60 columns are allocated, which one row with more than 50 columns causes (75); the sizes are addressed by the number of columns, so exactly 50 columns are past the end.
* C203: of a speech with segments of several speakers only the speaker of the last segment is put in order (sgml_reportgenerator.cpp 136-138).
* C204: `GetAlignmentFor` gives NULL for a token alignment made by another system's insertion, and the report dereferences it (sgml_reportgenerator.cpp 378-); an alignment without speeches or with an empty first speech also dereferences NULL.
* C205: `hyp_fname` is empty if every segment begins with a deletion.
* C206: when the output file cannot be opened `where` is set to 1 again instead of 0, so the report is written to the closed file and lost, although the message announces the standard output. Words with a quote are written without escaping.
* C207: the arrays hold 40 hypotheses and nothing checks it (sclite.c 443); the loop over the arguments ends at the first stray word without a message; the help text says `ukranian`, the code `ukrainian`.
* C208: `BF_FLIP` makes a report that is named twice disappear, so `-o all sum` has no summary.
* C209: with piped input only, -m and -c compare a NULL format; the documented exclusions of -F and -D with -d are not checked; `tmk` passes the checks but is never scored.
* C210: -n does not append the hypothesis file's name if there are several, so the reports overwrite each other.
* C211: with piped systems and hypotheses the hypotheses are stored at `scor[nh]` and reported from `scor[nsc]`: the first piped systems are overwritten and an unset place is read (sclite.c 204-285).
* C212: the status is 0 after the message about unsuccessful completion (sclite.c 380-388).
* C213: a speaker whose reference words all weigh 0 has counts printed as percentages in the weighted summary (scores.c 1127-1159).
* C214: `tot_corr` etc. are `int`, so fractional weights are cut after every speaker (scores.c 1067, 1169-1178).
* C215: the values of speakers without words are moved up, the numbers of words are not, so the second such speaker is looked for one place too far (scores.c 1393-1414).
* C216: `lfmt[50]` holds 24 systems; rows are matched by position (scores.c 1584-1660). Speakers without reference words count as 0% here, unlike in the summary of one system.
* C218: a perfect system has no NCE: 0·log 0 is not a number, and F_ROUND converts it to int (scores.c 1901-1921, 1323-1330).
* C220: widths are computed from ceil(log10), which is one too small for powers of ten, and not from the percentages (statistics.cpp 49-66, rawsys_reportgenerator.cpp 390-404).
* C222: GetSum(1) replaces a sum of 0 by 1, so the test for 0 at rawsys_reportgenerator.cpp 591-632 never holds and counts are shown times 100.
* C223: the S.D. of one value is 0/0, converted to int by F_ROUND (statistics.cpp 58, rawsys_reportgenerator.h 28-31).
* C224: the confidences of wrong words enter as log c, not log(1-c) (rawsys_reportgenerator.cpp 51-84); sclite does it right. The total is not tested for its size before it is converted (640).
* C227: `deletable` is overwritten by each token (graph.cpp 771, 1422); `align.optionally` is not consulted.
* C228: `bestnumchg` is set only when costs are equal (graph.cpp 944-1061), so it stays 0 after the first or a cheaper candidate.
* C229: `transitioncost =` instead of `+=` at graph.cpp 1437.
* C230: NextGeneric adds no empty segment for a system without segments (ctmstmrttm_segmentor.cpp 119-136), the report pads at the end.
* C231: `where = 1` where 0 is meant at sgml_generic_reportgenerator.cpp 52.
* C232: nothing is quoted in the log; `s/\s+//g` in the reader removes blanks inside fields.
* C234: `SetSegGrpID` (alignment.cpp 161) keeps one number per reference segment, overwritten by each further system; `GetToken` then returns undef and align2html dies.
* C235: SG lines of an alignment of several systems end with a single empty field after the eleven columns (segmentsgroup.cpp 287-290).
* C237: at level 7 fatal messages are not shown; `isAlignLogON` is false above 7.
* C238: the segment invented for a group without hypothesis is at 0-0 (recording.cpp 653, "May need to put the segment time"), so `GetMinTime` is 0.
* C243: overlap zones that touch are sorted end first, so that between them the count of zones is zero and the partition starts anew; the loop then needs an event later than that start to stop, and the partition's end at the same time as a zone's end does not stop it.
* C244: md-eval.pl 589-600: `next unless $prev_token` comes before `$prev_token` is ever set, so the check for overlapping turns never runs.
* C245: the inner loop variable `$nsys` is left over from the last type when the missed cell is filled.
* C247: `map_speakers` uses the segments of the partition before collars (evaluated), the score those after.
* C248: `$evaluating` is only set again at a turn's boundary or within a word; a region after the last turn never ends. The branch on a next region handles only a next region.
* C250: rttmSmooth.pl 23 keys turns by file and speaker without the channel.
* C251, C252: stm2rttm.pl 109-110: after `splice` the index is increased instead of decreased, so that the two segments after a joined one are never looked at.
* C253: mergectm2rttm.pl 71, 104: turns (words) with the same begin are pushed to one list of which only the first six fields are read.
* C255: rttmSort.pl 39 uses the text of the begin time as key, so that 1.0 and 1.00 are two times.
* C257, C259: the patterns of hamzaNorm.pl 90 and tanweenFilt.pl 97-100 know the space as the only separator of words.
* C262: def_art.pl 44-48 sets the format only if -i is given; the loop of lines 78-120 then does nothing.
* C263: check_metadata_overlap sorts by begin only; an object of zero extent passes before, but not after, one that begins with it.
* C266: check_noscore_overlap looks only at NOSCORE lines with the speaker <NA>, which no check asks for.
* C267: scalar($sus) in rttmValidator.pl 861 is that of a reference, so the test always holds; the element after the last unit is then made by looking at it, and the loop goes on to a unit from 0 to 0. A point at the end of a unit counts only if the next unit begins there, so an edit at the end of a unit before a pause is refused. A point of subtype other, which line 345 allows, is never marked.
* C269: the pattern of rttmValidator.pl 378 has NONSPEECH for NON-SPEECH; find_speaker looks in all recordings of the file.
* C270: with all latencies the same, range_iter is 0 and no value is below the upper limit of any range (slatreport.pl 352, 370).
* C271: the hash of slatreport.pl 302-304 has the begin as its last key.
* C274: `if ($resid =~ /^[sS]/)` changes `$resid` before `if ($resid =~ /^[eE][nN]/)` tests it, which then skips two letters from the place of the s (acomp.pl 270-271).
* C275: `$MaxLen` is set for the parts of entries with hyphens or underscores only (acomp.pl 306, 313-316).
* C277: `[bcdfghjklmnpqrstvwxyz]` never matches text that was turned into capitals (acomp.pl 144, 255, 297).
* C278: `chop` takes the last letter of a last line without end of line (acomp.pl 86).
* C279: `-m 0` with a blank line in the lexicon is an endless recursion (acomp.pl 238-245, 296, 314).
* C280: `()` and records without a word have no words to be written (acomp.pl 103-104, 151).
* C281: `aq($1)` in the replacement is text (acomp.pl 155).
* C282: later entries overwrite `$CompHash` (acomp.pl 308-315).
* C284, C285, C286, C287: chfilt keeps the end of the last segment of a channel, not the greatest end so far (chfilt.pl 818, 855, 886, 912), so that a segment within a longer one shortens it when smoothed, cuts the region that is not scored, and makes padding and gaps run into speech.
* C289: `s/[0-9]$//` removes one digit (chfilt.pl 754).
* C292: `/^[A-Za-z]\./`, `/@/` and `/%(BCN?ACK|HESITATION)/i` are not anchored at the end (ctmValidator.pl 139).
* C293: the rule for fragments has no place for hyphens within (STMList.pm 83).
* C294: `(...)\)*$` has the star at the parenthesis instead of the group (STMList.pm 89), and `o'\S+` has no rule in parentheses.
* C295: the backslashes of `$punct` are gone before it is put into `[^$punct]`, so the class ends at the `]` in it and the rest is an alternative of its own (STMList.pm 110, 114, 116).
* C296: `loadFile` takes records of any number of fields, `validate` looks at their text only, and `s/;;.*$//` cuts within the text (STMList.pm 137-153, 189-201), whereas the scorers take `;;` for a comment at the begin of a line only.
* C297: `/;;/` is not anchored, so that a word with `;;` in it is skipped (rttm2ctm.pl 37).
* C298: the expression is anchored at neither end: `XLEXEME` is taken for `LEXEME`, and a confidence `1e-5` is written as `1` (rttm2ctm.pl 41).
* C299: rttm2ctm writes `<NA>` confidences and times such as `.5`, ctmValidator rejects both (rttm2ctm.pl 41, ctmValidator.pl 126, 132, 147).
* C300, C301: the hash of the sorters is keyed by `$a[1]`, the white space after the name of the file, not by the channel `$a[2]`: records of one file with different white space there are not put in one order (hubscr.pl 359-360, 389-390).
* C300: the begin `*` of the markers of alternatives counts as zero, so that sorting moves the markers before the words of their channel (hubscr.pl 351).
* C302: a confidence `NA` is taken out only if there is a type (hubscr.pl 531-534).
* C304: German is always refused unless `-d`, an option for Arabic, is given: the test whether the lexicon is there is missing (hubscr.pl 319-320).
* C304: after the language model was renamed from `-M` to `-K`, the tests are still of `-M`: options for md-eval are refused unless they are the name of a file, and a language model is neither looked for nor excluded with `-w` (hubscr.pl 323-326).
* C307: a table whose limit is below a third may exceed it: it grows once, and `(int)(max_occupancy+1)`, meant to make it large enough, is always 1 (sih.c 101-104).
* C308: below three nearest_prime_up gives 1, 1 and 3 for 0, 1 and 2; the tables of the program are never so small (sih.c 45-62).
* C309: a file whose block of strings has fewer strings than there are slots is looked at behind the end of the block (sih.c 254-255).
* C310: an empty line of a list of words adds the word before it again under a new number, and in the first line a word that is not defined (read_wlist_si.c 36-46).
* C311: an index more than 65000 above the one before may not be got back, although a word may have up to 65535 successors: `new_index` adds one entry to the table at most (short_indices.c 53-56).
* C312: the count zero is not stored, since zero is the mark of an empty entry; its index is given to another count later (lookup_index_of.c 39-44).
* C313: an alpha out of the range that is met for the first time is stored at one index and read at the next: what is got back is the one stored after it or an element that was never set; met again it is got back, but for the first of the array, which is taken for the end of the range (two_byte_alphas.c 68-71, 80-82, 105-110).
* C314: if all files are empty mergeidngram never ends and writes an n-gram of the largest numbers with the count zero for ever, since the end is only looked for when a file ends inside the loop (mergeidngram.c 191-227).
* C315: for the last n-gram of a table the search goes one element beyond the table of its successors (`ng_end = num_kgrams[k]`, arpa_bo_ng_prob.c 107 and 120, the same in bo_ng_prob.c); if the memory there has the word an n-gram is found that is not in the model. For the last word of the vocabulary the place of the next word, which is never set, is looked at (arpa_bo_ng_prob.c 76-83, load_lm.c 710-716).
* C316: whenever an n-gram of two or more words was found, decode_bo_case shifts by minus four (`i=-2` and then `1 << (2*i)`, decode_bo_case.c 51-54), which is not defined in C; the result is multiplied by zero.
* C318: from a binary file, the default, ngram2mgram never writes the last m-gram (`case BINARY: break`, ngram2mgram.c 341-342). From a text without an end of line after the last count the last m-gram is written under the name of the one before it, since the last n-gram has not become the previous one, or if there is only one n-gram memory that was never set is written; the latter also for an empty text (ngram2mgram.c 172-185, 343-354).
* C319: wfreq2vocab does not compare the number of records with -records, so that more of them are written behind the array (wfreq2vocab.c 147-159); the theorems are for lists that fit.
* C320: the test for discounts out of range does not see the result of zero by zero, but such a range is always rejected, because the discount of the last count before the gap is negative (compute_discount.c 95-106); this is part of the theorem. In the exception for words that do not occur the cutoff is not applied (compute_discount.c 77-79 return before 116).
* C321: if the text does not end with an end of line or a blank its last word is not taken, since `rr_feof` is already true when it has been read (perplexity.c 255-262). For a text without words that count the perplexity is zero by zero (perplexity.c 416-420). The warning for probabilities out of range names the first words before, not those of the context used (`prev_words[i]`, perplexity.c 328).
* C322: a word that is not in the vocabulary is reported as an error, but sets the entry 0, which forces backing off from all unknown words (gen_fb_list.c 88-107, sih.c 155-158). A line with a word only takes the mark of the line before; in the first line memory that was never set is used (gen_fb_list.c 77).
* C324: the loop of text2idngram that writes a temporary file compares the last n-grams of the buffer with the one at the last position, which is not sorted and belongs to the next buffer, or whose last word is memory after the end of the text. If it is equal to the greatest n-gram of the buffer, that n-gram is not written at all, so all its counts in the buffer are lost (text2idngram.c 306-321). A text that ends with its last word loses its last n-gram (text2idngram.c 248, 254).
* C325: when there are more temporary files than -files allows, merge_tempfiles makes a file in between but never closes it before reading it (idngram.h 153-159), so what is still in the buffer of the stream is lost; with -write_ascii the file in between is text and is read as binary. A temporary file that is empty, as C324 allows, makes it take memory that was never set for an n-gram (idngram.h 175-185). With -files 1 it calls itself for ever.
* C326: the last k-gram of the file is only counted when the last n-gram begins it (idngram2stats.c 170-178, and the same in idngram.h 322-330): the loop after the end uses the place of novelty of the last n-gram instead of 0. When the last two n-grams begin with the same k words, the number of k-grams printed is one too small, and so is the suggested -spec_num without its margin.
* C327: the numbers of items of each tag for training are always counted over the first part of the items (interpolate.c 521-526), but with -test_first, and in the second half of -cv, training is on the last part (593-599). A tag that only the last part has keeps its first weights (573); a tag that only the first part has is divided 0 by 0 (583-588). The perplexities printed for each tag (n_in_tag) are wrong too. That the likelihood never falls from one iteration to the next is not proved.

## Not modelled

Perl tools, HTML/graph report layout, command-line parsing, memory allocation
failure, the SLM language-model weighting and the program `diff`. Within the
modelled files: the sizing of
sclite's alignment arrays by arc counts, rounding of `float`/`double`, the C locale behind
`tolower`/`isspace`, NUL bytes in input files, the case conversion inside the
separator search, SGML header lines and number formatting, ROVER's `putat` format and
`Network_copy` (taken to be an exact copy).
