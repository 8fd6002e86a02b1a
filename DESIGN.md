# Design

Machine-checked Lean 4 model of averykhoo/ngram-movers-distance (`/repo`) and
proofs of the properties in `properties.jsonl`.

## Trusted base

* Lean 4.33.0's kernel and elaborator of definitions, plus Mathlib as installed.
* Axioms: only `propext`, `Classical.choice`, `Quot.sound` (checked with
  `#print axioms` and by `vcheck`). No axioms of our own, no `sorry`, no
  `native_decide`, no `bv_decide`.
* The correspondence between the Python source and the Lean definitions. It is by
  reading; every definition in a `Model` file cites file and lines in `/repo`.

### Modelling conventions

* **Numbers.** Python floats are modelled as exact rationals (ℚ) and the claims are
  about exact arithmetic (power means with real exponent use ℝ), except in `Verif/Fp`
  (C101–C108, C124–C140, C147–C151, C157–C158, C165–C168, C226–C236), where every float operation of `emd_1d.py`, `ngram_movers_distance`, the
  word lists (V6, V5, V5b, V3), `WordSet` and `bow_ngram_movers_distance` is rounded: `Rounding` lists what is used of the arithmetic, `binary64` proves it for rounding
  to 53 bits, ties to even, unbounded exponent. That overflow and underflow do not
  occur in this code within generous bounds on the input is C165–C168, and C252 for the variants of `emd_1d` (C147–C151). Special values (infinities, NaN) are not modelled. `mean` in the rounded word list is the
  one with `dim = 1` (`x ** 1` is exact). `sum` of floats adds from left to right before CPython 3.12 (`binary64`) and
  compensates rounding errors since (`binary64c`, `Fp/Sum`). The theorems about lookups and distances hold for both;
  for the compensated sum they are about at most 2^20 terms (hypotheses `… ≤ R.sumMax`), and C126 (unnormalised
  lookups) is about at most two sizes `n`, since its aggregate has to be monotone.
* **Strings** are `List Char` (a Python str containing lone surrogates has no
  counterpart), in `Verif/Tok` lists of code points. `str.casefold`, the Unicode normaliser and similar library
  functions are arbitrary function parameters; when a proof needs idempotence of
  `casefold` that is an explicit hypothesis.
* **Exceptions** are values (`Except PyErr`). Arguments whose run-time type is
  checked by the code are modelled by `PyVal`.
* **dict / Counter / defaultdict** are insertion-ordered association lists with
  distinct keys. **set** is a duplicate-free list where order is not observable.
  `BitMap` (pyroaring) is a finite set of naturals. `lru_cache` is taken to be transparent in the other models; C197 and C198 (`Verif/Memo`) prove when it is.
* `sorted` is a stable sort; `Counter.most_common(k)` is a stable descending sort
  by count then `take k` (`heapq.nlargest` is documented to be equivalent).
* `scipy.optimize.linear_sum_assignment` is a parameter with the contract
  "returns a minimum-cost complete assignment of the smaller side".

### What is not modelled

Memory (except in `Verif/Cy`), performance, threads (except in `Verif/Conc`), numpy/C dtype overflow, import
and packaging, logging/printing, file I/O (except in `Verif/File`). Of `/repo/experiments` only the parts named
in the layout table are modelled.
`re.sub` and `re.escape` inside `to_regex` are modelled for the constant patterns used there (Python 3.7 and
later); what `re` does with the resulting pattern is specified in `Verif/Regex/Spec` for the subset of the
syntax that can occur (flags 0).
In `Verif/Conc` an operation on one dictionary or one bitmap is indivisible (which holds with the GIL for keys of type
`str` and `int`); a thread makes one call (several calls in a row are several threads run one after another); only
`add`, `discard` and `find_similar` of a `WordSet`, or `add_word` and `lookup` of a `WordList`, run concurrently. An
iterator over a list reads the item at its position, so it sees what is appended before it has come to the end.
In `Verif/File` paths are taken as texts (no `.`, `..`, links), files hold text, no other process interferes, and
tokenizers given by the caller are left out in binary mode. In `Verif/Cy`: NaN and infinities, overflow of `n * sizeof(double)`, and arguments that change while they are
read (a `__len__` larger than the number of items, a `__float__` that mutates the list) are left out.
In `Verif/Sizeof`, objects that exist only while they are asked for (whose `id` can be used again) and exceptions
other than the `AttributeError` of line 102.

## Layout

| directory | models | content |
|---|---|---|
| `Verif/Py` | Python semantics used everywhere | errors, dict, sorting |
| `Verif/Emd` | `nmd/emd_1d.py` | `Model`, `Spec`, lemmas, `Props` |
| `Verif/Core` | `nmd/nmd_core.py` | idem |
| `Verif/Fp` | `emd_1d.py` (and the comparison of its functions in the tests), `ngram_movers_distance`, the word lists (V6, V5, `ApproxWordListV5b`, `ApproxWordListV3`), `WordSet` and bags of words in rounded arithmetic | `Rounding`, `Sum` (the two versions of `sum`), `Model`, lemmas (`Emd`, `Error`, `Nmd`), `Props`; `IndexModel`, `IndexSpec`, lemmas (`IndexState`, `IndexAccum`, `IndexLookup`, `IndexSim`, `IndexGap`, `IndexBest`), `IndexProps`; `SetModel`, `SetSpec`, lemmas (`SetState`, `SetSim`, `SetRank`), `SetProps`; `BowModel`, `BowSpec`, `BowLemmas`, `BowProps`; `VarModel`, lemmas (`VarRel`, `VarGreedy`, `VarLemmas`, `VarRange`, `VarWhole`), `VarProps`; `SumLemmas`, `SumProps`; `Range`, lemmas (`RangeEmd`, `RangeSim`, `RangeIndex`, `RangeLookup`, `RangeSet`, `RangeBow`), `RangeProps`; `V5bModel`, `V5bSpec`, lemmas (`V5bState`, `V5bLookup`, `V5bError`), `V5bProps`, `V5bErrorProps`; `V5Model`, `ScanSpec`, `ScanLemmas`, `ScanProps`; `V3Model`, `V3Spec`, lemmas (`V3Lemmas`, `V3Range`, `V3Error`), `V3Props` |
| `Verif/Cy` | `experiments/emd_1d_cython.pyx` on a heap with undefined behaviour | `Model`, lemmas (`Lemmas`, `Dp`), `Props` |
| `Verif/Bow` | `nmd/nmd_bow.py` | idem |
| `Verif/Index` | `nmd/nmd_index.py`; `V5b*`: `experiments/gemini_optimized_v5.py` | idem |
| `Verif/WordSet` | `nmd/nmd_word_set.py` | idem; `Marks`, `MarksProps` (`normalize_nfd_strip_marks`) |
| `Verif/Conc` | threads sharing one `WordSet` | `Model` (steps), `Spec` (exclusive adds, order of beginnings), `Reader`, `Find`, `Writer`, `System` (invariants), `Props`, `Races` |
| `Verif/Conc/List*` | threads adding words to one `WordList` | `ListModel` (steps), `ListSpec`, `ListPosted`, `ListInv`, `ListSystem`, `ListRun` (invariants), `ListProps`, `ListLost`, `ListAlarm` (races) |
| `Verif/Conc/ListFind*` | a lookup among them | `ListFindModel` (steps), `ListFindSpec`, `ListGrow`, `ListPartial`, `ListPasses`, `ListChoice`, `ListFind` (invariants), `ListFindProps`, `ListAlone` |
| `Verif/Memo` | the caches of `get_n_grams` and `num_grams` | `Model`, `Spec`, `Lemmas`, `Bridge` (without caches the methods are those of `Verif/Index`), `Props`, `Lru`, `LruProps`, `Spoiled`, `Floats` |
| `Verif/Trie` | `experiments/find_replace_trie.py`, class `Trie` | mapping (`Model`, `Node`, `State`, `MapProps`), sorting and slices (`Sort`, `SortProps`), text search (`Scan*`), approximate lookup (`Lev*`), `findall_longest` (`Longest*`); `KeysModel`, `KeysProps`, `BytesProps` (`fromkeys`, `Match`, `nbytes`) |
| `Verif/File` | `Trie.process_file`, `format_bytes`, `format_seconds` of `experiments/find_replace_trie.py` | `Model` (file system), `Spec`, lemmas (`Lemmas`, `Run`, `Clean`, `Format`), `Props`, `FormatProps` |
| `Verif/Edit` | `experiments/edit_distance.py`, `experiments/automata.py` (`levenshtein`, `BKNode`) | `Spec` (edit scripts), `Dist` (cheapest script), models and properties |
| `Verif/Auto` | `experiments/automata.py` (`NFA`, `DFA`, `levenshtein_automaton`, `find_all_matches`, `intersect`, `Matcher`) | `Model`, `Spec` (paths of automata), lemmas, `Props`; `MatcherModel` (a `Matcher` that keeps its state), lemmas (`MatcherLemmas`, `MatcherRun`), `MatcherProps` |
| `Verif/Dawg` | `experiments/dawg.py`, `experiments/dawg-orig.py` | `Model` (node objects as a heap), `Spec`, lemmas (`Run`, `Core`, `Insert`, `Read`, `Min`), `Props`; `TextModel`, `Text`; `OrigModel`, `OrigLemmas`, `OrigRead`, `OrigProps` |
| `Verif/Sizeof` | `experiments/sizeof.py` | `Model`, `Spec`, `Lemmas`, `Props` |
| `Verif/Tok` | `experiments/tokenizer.py` | `Model`, `Spec` (cuttings, runs, boundaries, windows), lemmas (`Cut`, `Merge`, `Sent`), `Props` |
| `Verif/Regex` | `experiments/find_replace_trie.py`, `Trie.to_regex` | `Model`, `Spec` (reading and running patterns), pattern trees (`Pt`, `Build`), rewriting passes (`Passes`, `Passes2`, `Final`), reading the pattern back (`Parse`), meaning (`Sem`, `TrieSem`, `Glue`), `Props`, `Witness`; `KeysModel`, `KeysProps` (function `to_regex`) |

In each directory `Spec` files do not mention the model; `Props` files contain the
property theorems, each followed by an `example` instantiating its hypotheses.

## Properties

| id | modelled by | proof plan |
|---|---|---|
| C01 | two-buffer DP of `emd_1d_dp`, row by row with list updates | DP cell = recursion on sorted prefixes; exchange argument shows recursion ≤ cost of every pairing; achievability by construction |
| C02 | same | recursion symmetric; swap harmless |
| C03 | same | sorting is permutation invariant |
| C04 | same | zero cost pairing is a permutation |
| C05 | same | case analysis on the alignment recursion |
| C06 | same | from C01 |
| C07 | `itertools.combinations` search | min over sublists = optimal pairing when all distances ≤ 1; sharpness by computation on two points |
| C08 | all branches of `emd_1d_hybrid` | dedup lemma, component-split lemma, greedy-end lemmas; distances up to 2 by halving all points |
| C09 | all branches of `emd_1d_old` (indexing may fail) | same lemmas; #x ≥ #y invariant per component |
| C10 | `nmd` with dynamic arguments | case analysis |
| C11 | loops building `n_gram_locations` dicts, similarity loop | dict = grouping of positions; split of sum into shared / unshared |
| C12 | same | C11 + C04 |
| C13 | same | position 0 and successive positions determine the word |
| C14 | same | C02 + sum over shared keys is symmetric |
| C15 | same | C11 + C05 termwise over union of n-grams |
| C16 | same | algebra |
| C17 | same | C06 |
| C18 | same | every shared gram contributes ≥ 1 |
| C19 | same | concrete triple |
| C20–C22, C50, C51 | cost matrix, summation loop, validation; assignment solver = any function meeting scipy's contract `LsaOk` (met by `bruteLsa`) | index matchings ↔ assignments of multisets; value is the unique minimum |
| C23–C25 | state machine of `add_word`/`lookup` | invariants by induction over histories |
| C26–C34 | `lookup` with pruning loops | loop invariant over processed n-grams; bound C29; monotone aggregation |
| C35–C38 | `WordSet` state machine (`WS.step`) | representation invariant `WSRep`, observational refinement of `absStep` over all call sequences |
| C39–C43 | `find_similar` | `ranked` is the unique `Ranking`; C42 records that the threshold is ignored, with a witness |
| C49 | `mean` over ℝ | monotonicity of `rpow` |
| C52–C56 | nested nodes, item assignment, deletion with branch removal, DFS of `items` | invariant `Inv` (well-formed nodes, count) over call sequences, refinement to a finite map |
| C57, C58 | recursive `sort_keys`, slices by comparison of keys | nodes sorted → items in lexicographic order |
| C59–C62 | one-pass scan with open spans and pending matches, output buffer | invariant `ScanInv`: the leftmost-longest cutting of the prefix read so far splits into an emitted part and a pending part that determines spans and matches |
| C63, C64 | depth-first loop over a stack of frames and DP rows, row functions with list updates and negative indices | table = distances of prefixes (`cell`), cut-off justified by `prune`, loop = recursion over frames (`foundP`) |
| C65 | clusters, groups by end, `bisect` table | invariant `LisInv`: table entries are best chains up to an end |
| C66–C68 | row-by-row DP of `edit_distance`, `levenshtein`, `damerau_levenshtein_distance` with list indexing | row = distances of prefixes; scripts ↔ step sequences; composition of scripts gives the triangle inequality |
| C69 | `BKNode` as a nested tree | invariant `BKGood` over inserts; triangle inequality justifies the range |
| C70–C72 | `ApproxWordListV3` (`V3Model`) | invariant `V3Inv` over `add_word` histories; events per n-gram summed per word as for C26 |
| C73–C75 | row loop of `extended_edit_distance` with list updates, the filler `inf` arbitrary | invariant `EedInv`: row entries are least costs of walks, coverage entries count visits; positive costs are zero only on the diagonal |
| C76 | `NFA`, `_expand_epsilon`, `to_dfa` with arbitrary set iteration order | `Rep` (dict = list of calls); closure loop = reachability; worklist invariant `BInv`; run = subset of states reachable by a path |
| C77 | `levenshtein_automaton` | path to (i, d) ↔ prefix distance ≤ d; the start set never recurs |
| C78 | `next_valid_string`, `find_next_edge`; rounds as fuel, theorem for all large fuel | no dead ends, bounded depth; induction over the input with the stack as continuation |
| C79 | `find_all_matches` with `Matcher` (`bisect_left` loop) | invariant: all matches below the probe are yielded; measure on entries not below the probe |
| C80 | `DAWG.insert`, `minimize_unchecked`, `finalize`, iteration; any list of calls, rejected ones included | invariant `Inv` over the calls: `Core` (path of unchecked nodes, registered nodes closed and live, labels on the path are maximal) and language = accepted words |
| C81 | `index`, `step`, `lookup`, `__contains__`, `get_index`, node counts | `finalizeNode_ok`: leaf counts = number of words below; induction over the word / the depth |
| C82 | `count_nodes`, `count_edges` | registered nodes with equal languages are equal (induction on depth); nodes ↔ residual languages; injection into the states of any automaton |
| C83 | reads before `finalize`, negative positions, `insert` after `finalize` | from the invariant; witness for the last |
| C84–C85 | `ApproxWordListV5b` (`V5bModel`), same state type as V5/V6 | first pass = that of V5 (`v5bMinScores_eq`); second pass as events with the per-event division; shared pruning lemma (`prune_spec`, `topScores_of_perm`); uniqueness of the top scores |
| C86–C87 | `add_word`, `__contains__`, `__len__`, `vocabulary`, constructor | same index as V6 (`v5bAddWord_state`), then C23; case analysis |
| C88–C90 | the four loops of `tokenizer.py`, `unicode_tokenize`; strings as code points, `unicodedata.category` an arbitrary function | invariants of the loop; uniqueness of well-cut lists (`cut_unique`); the other loops by induction against the first |
| C91 | `_merge_apostrophes_into_words`, a step function on `wait`, `_1`, `_2`, `_3` | machine run over one maximal run (`word_run`), induction over the runs |
| C92–C94 | `sentence_split_tokens`, `sentence_split`, `str.strip`, `str.split` | `closed` ⇔ closing mark followed by closers; induction over the tokens with the cut positions |
| C95 | `text_n_grams`, `word_n_grams`, `zip(*...)` | `zipStar_windows` by induction |
| C96–C98 | `Trie.to_regex`: list of parts, five `re.sub` passes, collapse of `\s\s`; keys are characters | the parts spell a pattern tree (`Pt`); the passes act on the tree (`simp`), passes 2 and 3 never find anything; the text is read back as the tree (`parse_brackets`); ends of matches = keys read from the position, in descending order when keys part with exclusive characters |
| C99, C100 | idem | no quotation mark is escaped; evaluation on witnesses |
| C101–C103 | the loops of C01 with every float operation rounded | loops compute a rounded recursion (`alignF`); monotone rounding preserves integer bounds; induction gives the factor per cell |
| C104–C107 | the loops of C11 with rounded positions, sums and quotient | loop bounds by integers (`simFold_le`, `le_simFold`); accumulated error (`simFold_err`) from C103 and the 1-Lipschitz bound (`emd_map_err`); exact distances of different words lie on a grid (`emd_grid`) |
| C108 | idem | evaluation on a witness; C106 and C15 |
| C109 | the `collections.abc.MutableSet` methods inherited by `WordSet`, written out over the modelled `add`, `discard`, `in` (`WordSet/Ops`) | refinement of the abstract set (C35) and induction over the operand (`absIor`, `absIsub`, `absIxor`, `absIxor_nodup`) |
| C110, C111 | the inherited comparisons | refinement; counting of normal forms |
| C112 | idem, with the keyword-only constructor | every path reaches `cls(it)` |
| C113, C114, C116 | `emd_1d_dp_cython` over an explicit heap (blocks, freed blocks, uninitialised cells, null pointers, an oracle for failing allocations); undefined behaviour is an outcome | symbolic execution of every path; loop invariants over the heap (`fill_spec`, `inner_ok`, `outer_ok`) |
| C115 | idem, doubles rounded as in `Verif/Fp` | the rows hold the table of `emdF`; symmetry of the recursion for the swap |
| C117–C121 | `process_file` as a program over a file system (`Verif/File`) with an oracle for failing system calls and the history of all file systems | invariant of the phase before the output is touched (`Before`, `keeps_*`), exact course of the rest (`install_run`); C61 for the translation |
| C122, C123 | `format_bytes`, `format_seconds` in exact arithmetic, with the decimal digits | loop invariants; the text is read back by `decimalOf` |
| C124 | `add_word` with rounded positions (`Fp/IndexModel`) | the rounded state is the exact state with rounded positions (`addWordF_rounded`), induction over the calls |
| C125 | the second pass of `lookup` with rounded sums | per word and `n` the accumulated updates are the loop of `ngram_movers_distance` in the same order (`matchScoresF_spec`, `simNF_eq_simF`) |
| C126 | both passes, pruning and selection with rounded arithmetic | integers survive rounding, so the bounds of the first pass hold exactly; `lookupF_spec`, `picked_ge` |
| C127 | idem | for `n ≥ 2` no shared n-gram moves over the whole length (`posOf_close`), so the computed similarity exceeds its lower bound by a factor that covers all rounding errors (`simNF_gap`, `pruned_le`) |
| C128 | idem | rounding errors of both passes as powers of `1 ± u` (`lower_upper`, `two_lower_lower`, `score_upper`, `score_lower`) |
| C129 | idem | C127; exact distances of different words lie on a grid (`locDist_ge`) |
| C130 | idem | `simFold_err`, `mean1_err` |
| C131 | all methods of `WordSet` with rounded positions and scores (`Fp/SetModel`) | the rounded state is the exact state with rounded positions (`setStepF_state`), induction over the calls; `find_similar` by words (`findSimilarF_abs`) |
| C132 | `find_similar` with rounded arithmetic | `rankF_eq`, `findSimilarF_eq`, uniqueness of rankings (`rankingBy_unique`), `scoreSF_eq`, `one_le_simSF` |
| C133 | idem | error of the fold over shared n-grams (`simSF_err`), of the quotient (`scoreSF_err`) |
| C134 | idem | `scoreSF_self`; true distances of different words lie on a grid (`setDist_ge`, `scoreSF_eq_one`) |
| C135 | idem | C132 and C133 |
| C136 | idem | the loop runs over the word with fewer n-grams, so the order of summation is the same (`visited_comm`); witness computed by the kernel |
| C137 | `bow_ngram_movers_distance` with rounded arithmetic (`Fp/BowModel`), solver as a parameter | exceptions of each cell agree (C104), so those of the matrix do (`mapM_error_iff`); integer bounds survive each rounded step (`addFold_bounds`, `subFold_bounds`) |
| C138 | idem, binary64 | a rounded sum of floats is at least each of them (`le_addFold`), C107 for each pair, an assignment of total 0 is a permutation |
| C139 | idem; the solver's slack `ε` is a parameter (`LsaNear`) | cost of any matching under computed and true distances (`matchCost_close`, `sum_bowPicked_near`), error of the sums (`addFold_err`, `subFold_err`) |
| C140 | idem | C139 with C21; witness computed by the kernel |
| C141 | `experiments/dawg-orig.py` (`Dawg/OrigModel`): keys of `minimizedNodes` compared by stored hash and present text, `hash` an arbitrary function | simulation `Sim` by dawg.py's model through every call (edges are in order of labels, `build_srt`, so texts and keys of dawg.py distinguish the same nodes); `numReachable_ok`, `lookupFrom_eq`, then C81 |
| C142 | idem; `display` as a loop with bounded rounds | `Sim.mini`, C82; `display` is a `walk` (`Py/Walk`), which visits what is reachable once |
| C143 | idem | all counts are 0 before `finish` (`lookupFrom_zero`); witness computed by the kernel |
| C144 | `__str__` of both files as lists of characters (`Dawg/TextModel`), `repr` of a character with CPython's table of printable characters as a parameter | reading the text back: digits end at the next separator, a quoted label ends at its quote (`Dawg/Text`); closes the assumption of `Dawg/Model` that formatting is injective |
| C145 | `deep_sizeof` over a graph of persistent objects (`Sizeof/Model`); what is asked of an object is given by a record | the loop is a `walk` with a stack without repetitions (`loop_walk`); `walk_spec`, `walk_ends` |
| C146 | idem | C145 and sums over lists without repetitions |
| C147 | `emd_1d_slow` with rounded arithmetic (`Fp/VarModel`) | `Rel R k c v e`: `v + c` is `e + c` up to `k` roundings; minimum of related values (`Rel.pyMin`) |
| C148 | `emd_1d_hybrid` with rounded arithmetic; the search for components only compares and counts, so it is shared with the exact model | a greedy match taken because of a rounded comparison costs at most a factor `(1 + 4u)` more (`rel_marginal`); `processRanges_rel` carries any relation through the components; bounds by a second relation (`AccBnd`) |
| C149 | `emd_1d_old` with rounded arithmetic | idem; offset `c` is the number of `y` points seen |
| C150 | idem | sorting makes the order irrelevant; witness `[0]`, `[2^-60]` computed by the kernel |
| C151 | idem; `math.isclose`, `check_correct_emd_1d`, `check_emd_implementations` (`emd_1d_dp_optimized` is a copy of `emd_1d_dp`) | C103, C147–C149 with `u = 2^-53` |
| C152 | `Trie.fromkeys`, the tokenizers of `Trie.__init__` (`Trie/KeysModel`); `str.lower` on tokens is a parameter | `update_const_get`, the invariants of C52 and C57 |
| C153 | idem | from C61 by induction on the cutting; the tokenizer enters only through the tokens |
| C154 | `Match` (`Trie/KeysModel`) | from C59, C60, C62 |
| C155 | `nbytes`; objects are pairs of `id` and size, nodes a tree of objects | invariant of the two loops: the ids seen are those of a list of distinct objects whose sizes add up to the total |
| C156 | function `to_regex` (`Regex/KeysModel`); `lower` maps characters to characters (false for U+0130 only) | `pattern_spec` behind C96 with the keys of C152 |
| C157 | `sum` is a part of `Rounding`; `binary64c` has the compensated one (`Fp/Sum`, CPython's `builtin_sum_impl`) | two floats: the compensation restores the exact error, so the result is the rounded exact sum (`fast_two_sum`, `comp_pair`); the lookup depends on the aggregate through the rows of the words only (`lookupSimilarityF_eligible`) |
| C158 | idem | invariant of the loop: sum plus compensation is the exact sum up to a relative `n^2 u^2` (`CompInv`) |
| C159 | `Conc/Model`: small steps of `add`, `discard`, `find_similar` over shared attributes, bitmap objects with identity; a schedule is any list of thread numbers | invariant of the reader (`FInv`: the candidates collected are sound, and complete for the words of the beginning) kept by its own steps and by those of the adding thread (`Pend`: which attributes already hold the new word), over the whole system (`SInv`) |
| C160 | idem | `SInv`: the memory represents the words in order of their beginnings, except for the part of the running `add` |
| C161 | idem | an interleaving is given for every set and all words (both read the counter before either writes it; the discard between filter and scoring; the add between two steps of the iteration) |
| C162 | idem | witness |
| C163 | `WordSet/Marks`: NFD as decomposition and canonical ordering over arbitrary tables, then filtering | reordering moves only marks past marks, so the letters keep their order |
| C164 | the normaliser of `WordSet/Model` is `stripMarks` | equal letters give equal keys; C35, C41; witness for U+0345 |
| C165 | `Fp/Range`: rounding to nearest in binary64 with gradual underflow and overflow (`nearest64`, `IsDouble`); the models of `Fp` over it | all intermediate results are multiples of a fixed power of two below a fixed bound (`Bd`), where `nearest64` is 53-bit rounding |
| C166 | idem, `Fp/RangeSim`, `Fp/RangeBow` | idem; quotients of such numbers by integers are not subnormal |
| C167 | idem, `Fp/RangeIndex`, `Fp/RangeLookup` | idem, along the accumulation of scores |
| C168 | idem, `Fp/RangeSet` | equal scores give equal rankings; members stay short by induction over the calls |
| C169 | as C10–C19 | the n-grams before and after the block are matched with themselves; relative positions shift by at most (difference of counts)/(smaller count) each (`Core/Edits`) |
| C170 | as C10–C19 and C66–C68 | C169 for single edits and the triangle inequality of transport costs along the edits |
| C171 | as C35–C43 | C170 for every size; if no filter n-gram were shared the distance would be the number of n-grams; then C39 |
| C172 | as C23–C31 | idem with the result contract of lookups |
| C173 | as C10–C19 | the sum over shared n-grams is re-indexed |
| C174 | as C10–C19 | reversed n-grams with exchanged markers at mirrored positions (`Core/Mirror`); words with a single n-gram separately |
| C175 | as C20–C22 | the assignment of each word to its misspelling costs at most the bound of C170; C20 |
| C176 | as C20–C22 | an optimal assignment is completed, or the pair of the word is removed or redirected to an unused word |
| C177 | as C20–C22 | C173 and C174 for every entry of the matrix |
| C178 | rounded word lists, word sets and bags as in C116–C136 | C169–C172 and C175 combined with the rounding bounds; eligibility does not depend on rounding |
| C179 | rounded distances | any operations: the dictionaries of located n-grams are renamed key by key, so every operation has the same operands; reversal: both results are near the exact one, which C174 shows equal; the difference by evaluation |
| C180 | as C34–C40 and C131–C136 | `WordSym` collects what a set looks at (keys, candidates, scores); any symmetry commutes with every abstract call; renaming and reversal are symmetries |
| C181 | as C23–C33 and C116–C126 | renaming: the state is renamed dictionary by dictionary and every step commutes with that; reversal: eligibility, bounds and scores are invariant, C28 and C30 determine scores and exceptions; size 1 by a witness |
| C182–C183 | as C59–C62 | the cutting of the joined words is built word by word and is the leftmost-longest one, which is unique |
| C184 | as C96–C98 | C98 reduces it to C182 |
| C185 | as C96–C98, pattern between `\b` | C97 gives the hits at each position: none inside a word or at a separator, the whole word at its start |
| C186 | as C159, with `discard` | `WInv`: the memory represents the words in order of the beginnings of `add` and `discard`, except for the part of the running one (`Pend`, `PendD`) |
| C187 | as C186; only with a filter, since iterating over a dictionary from which items are removed is not modelled | `DInv`: the ids collected are those of entries stored at some moment of the call, and include those stored at every moment; ids are never used again, and of two entries with one key only the later has information when it is read |
| C188 | as C186 | the threads that have returned are left out (`run_sim`), the rest satisfies the invariant of C159 |
| C189 | `Conc/ListModel`: small steps of `add_word` over the shared lists and dictionaries of a `WordList` | `Inv`: the words, indices and postings are those of the calls past the checks, except for the remaining steps of each; a call that overtakes another while its index is being written fails a check for ever (`Bad`) |
| C190 | as C189 | witness, with the interleaving in which the second call finds the index of the first |
| C191 | as C189 | `Weak`: an index is posted only by the call that owns it; a call that has raised owns an index that nobody posts |
| C192 | as C189 | `Loose`: the keys of the indices are the listed words; with a duplicate the lengths never agree again (`Stuck`, induction over the later calls) |
| C193 | as C189 | witness: one call appends its number of n-grams between two steps of another |
| C194 | `Conc/ListFindModel`: small steps of `lookup` (reading one list or dictionary each, iterators by position) beside those of `add_word` | `Grows`: everything only gets longer; `RInv`: what the lookup has summed up are prefixes of the postings between those at its beginning and those at the end; complete words have all their postings from the beginning |
| C195 | as C194 | witness: the lookup takes place between the counts and the positions of the first n-grams of the other word |
| C196 | as C194 | each loop of the step machine against the corresponding fold of the sequential model |
| C197 | `Memo/Model`: both caches with their order, the list objects they share, and every method of V3, V5, V6 and V5b as code that calls the two functions; `Memo/Spec`: the process without caches, whose objects are those of `Index/Model`, `Index/V3Model` and `Index/V5bModel` | `Insens`: the methods cannot tell a cached number from an equal one; induction over the code (`exec_insens`) and over the program |
| C198 | as C197 | `Whole` code and caches that have only seen ints (`exec_whole`) |
| C199 | as C197; `Memo/FloatSizes` | direct computation of the four calls, for every `n` and all words; for any history, by the invariant that remembered numbers of n-grams have the right value |
| C200 | as C197 | the emptied list is found in the cache, so no n-gram is entered; a list without n-grams finds nothing whatever the caches contain |
| C201 | as C197 | `Since`: exactly the keys used after `k` stand before it in the cache |
| C202 | as C197 | the keys above 1 in the cache are integers (`IntKeys`); what is kept as in C201 |
| C203 | `Index/Model`; the scan is `Index/RankSpec` | the postings are in the order of insertion (`WL.Ordered`, induction over calls); dictionary keys are first occurrences (`keys_accum`); a stable sort is determined by order and ties (`eq_of_sorted_stable`); pruned words lie below a threshold that enough words reach (`best_best_split`) |
| C204 | as C203; V5 as well | discovery order, pruning and failure depend on the eligible words only (`discovered_congr`, `outranked_congr`, `lookupFails_congr`) |
| C205 | as C203 | C204 and induction over the calls |
| C206 | as C203 | sorting by the score first does not change a sort by the pair (`sortDesc_sortDesc`); the failure is a witness |
| C207 | `WordSet/Model`; `WordSet/IncrProps` | the result is the beginning of one ranking that does not depend on the count (`find_ok`, `find_relate`) |
| C208 | as C207 | a stable sort commutes with leaving out elements (`sortDesc_filter`); members before and after from the refinement of C35 |
| C209 | `Index/Model`; `Index/IncrProps` | the words come across in the same order without the new one (`discovered_filter`), then as C208; the failure is a witness |
| C210 | `Core/Model`; counts in `Core/OverlapProps` | the intersection of the multisets of n-grams, summed per n-gram; C29 for each |
| C211 | as C210 | windows of a block are a sublist of the windows of the word (`windowsOf_sublist`) |
| C212 | `WordSet/Model`; `WordSet/BlockProps` | C39 with the bounds of C210, C211 |
| C213 | `Index/Model`; `Index/BlockProps` | C26–C28 with the bound of C211 |
| C214 | `WordSet/Model`; `WordSet/MergeProps` | the members are determined by the words (`members_of_orig`); an element behind `k` others that are as good does not matter to a stable sort (`best_remove`, `best_merge`) |
| C215 | `Index/Model`; `Index/MergeProps` | C28 and C206 determine the scores (`topScores_unique`), then `best_merge` |
| C216 | `Emd/Model`; `Emd/InvarProps` | exchange argument for one common point (`emd_cons_common`), bags of points by counting |
| C217 | as C216 | transport plans are mapped and lifted (`map_plan`, `lift_plan`); triangle inequality |
| C218 | models of C63, C69, C79; `Trie/AgreeProps` | with the default cost 2 a transposition is two substitutions (`unit_of_edit`) |
| C219 | models of C80, C55; `Trie/AgreeProps` | C57, C80 and C81; sorted lists with the same elements are equal |
| C220 | `Fp/SetModel`; `Fp/SetIncrProps` | C132 as the best `k` of a list of answers that is a function of the members (`findF_answers`) |
| C221 | `Index/V5bModel`; `Index/V5bRankProps` | the scored words are a permutation of the unpruned ones in the order of the first events (`v5bLookupSimilarity_perm`, `v5bLookup_exact`) |
| C222 | as C221 | `best` of a filtered, permuted or concatenated list |
| C223 | as C221 and the model of C201 | both are `best` of the same discovery order |
| C224 | `Index/V3Model`; `Index/V3RankProps` | discovery order `discovered3`; stable sort (`V3.lookup_exact`) |
| C225 | as C224 | as C222 |
| C226 | `Fp/V5bModel`: `add_word` and both passes of `lookup` with rounded arithmetic; `Fp/V5bSpec`: the computed scores of two words without an index | per n-gram the computed contribution is at least its part of the lower bound and at most twice that (`partF_bounds`); rounding is monotone and doubling exact, so this survives the sums (`sumFold_bounds`) and pruning is safe (`v5bLookupF_exact`) |
| C227 | as C226 | as C222 |
| C228 | as C226; `Fp/V5bErrorProps` | per n-gram `simFold_err`; the sum and the divisions as powers of `1 ± u` (`sumScoreNF_err`, `sumScore_mean_err`); witnesses for self-scores above and below 1 |
| C229 | as C226 | C228, and exact scores of different words are at most 1 − 2^-34 (`scoreN_ne`, from `locDist_ge`), more than twice the error |
| C230 | model of C124–C128; specification `Fp/ScanSpec`; `Fp/ScanProps` | order of the second pass (`lookupSimilarityF_order`), so the result is a scan of the unpruned words (`lookupF_exact_pruned`); a pruned word is strictly worse than every word that reaches the threshold (`scan_prune`, and with normalisation `pruned_le` with a factor above 1 and positive scores, `mean_score_pos`), so leaving it out changes nothing (`best_best_kept`) |
| C231 | idem, `Fp/V5Model` for V5 | the threshold is a function of the scores of the eligible words up to order (`minAcceptable_perm`), then `lookupSimilarityF_eligible`; no property of the aggregate is used |
| C232 | idem | both lookups in terms of the unpruned words (`lookups_scored`); the full scan as C230 |
| C233 | `Fp/V3Model`, specification `Fp/V3Spec`, `Fp/V3Props` | the stored positions are those of exact arithmetic, rounded (`V3Rounded`, by induction over the calls); the dictionary of scores is a fold over the shared n-grams (`v3LookupF_exact`), whose order is that of exact arithmetic |
| C234 | idem | from the full scan, as C225 |
| C235 | idem, `Fp/V3Range` | every partial sum stays below an integer (`foldl_le_nat`), and is one for the query itself (`foldl_eq_nat`) |
| C236 | idem, `Fp/V3Error` | error of `emd_1d` (C101), of the additions and of the division |
| C237 | `Auto/MatcherModel` (the `Matcher` as an object with `probes` and `prev`), `Auto/MatcherProps` | a search from `prev` on is a search of `entries[prev:]` (`searchLoop_drop`), hence C79 applies; the position afterwards by induction over the loop (`searchLoop_state`) |
| C238 | idem | potential: position, yielded words and whether the next probe is an entry |
| C239 | `Fp/Model`; `Fp/BlockProps` | the bounds of C210, C211 are integers up to 2^53, or quotients of them: rounding is monotone and fixes these integers, so the bounds survive every step of the computation |
| C240 | `Fp/SetModel`, `Fp/IndexModel`; `Fp/BlockProps` | C126, C127, C132 with the bounds of C239 |
| C241 | `WordSet/ReprModel`; `WordSet/ReprProps` | the invariant of C35 keeps the configuration; the text is cut from the left at the first character that is no digit, and at the end from the right |
| C242 | `Index/V5bModel`, `Index/V3Model`; `Index/V5bFindProps` | the full scans C221 and C224 with the bounds of C172 and C213 |
| C243 | `Index/V5bModel`, `Index/V3Model`; `Index/V5bSymProps`, `Index/V5bRevProps` | the full scans C221 and C224: n-grams and their positions commute with the change, the sums are reindexed |
| C244 | `Tok/ClassModel`; `Tok/ClassProps` | case distinction over the categories; induction over the loop of the tokeniser for "becomes a token of its own"; the table is a parameter |
| C245 | `Dawg/CloneModel`; `Dawg/CloneProps` | the invariant of the graph under construction (no edge leads to a new object); injectivity of the texts (C144) and minimality (C82); a root with the words of another node would have words of any length |
| C246 | `Edit/Model`; `Edit/SymProps` | via the cheapest scripts of C66–C68: scripts are mapped, joined and reversed; induction over scripts for the character counts |
| C247 | `Edit/Model`; `Edit/BKProps` | insertion and search commute with the change by mutual induction over trees; visited nodes are summed over the children in the window of distances |
| C248 | `Fp/V5bModel`, `Fp/V3Model`; `Fp/V5bFindProps` | the float lookups are the best of the discovered words (C226, C233); a shared block or few edits leave a common n-gram (C242), so the word is discovered |
| C249 | `Fp/V5bModel`, `Fp/V3Model`; `Fp/V5bSymProps` | every function of the models commutes with renaming the keys of all dictionaries; induction over the added words; no assumption on rounding or aggregates |
| C250 | `Edit/EedModel`; `Edit/EedSymProps` | the loops commute with renaming; the closed forms by renaming to five fixed symbols and C75; costs by mutual induction over the walks of C73 |
| C251 | `Auto/InterModel`; `AutoSpec.Machine` in `Auto/InterProps` | an invariant of the stack and the local variables (they belong to the string unless there is no way on); induction over the word for automata that do not branch; witnesses for the rest |
| C252 | `Fp/VarModel`, `Fp/Range`; `Fp/RangeVar`, `Fp/RangeVarProps` | every intermediate result is a multiple of the least positive float and at most `2 ** 1023`: bounds carried through the greedy loops, the components and the loop that merges ranges |
| C253 | model of C63; `Trie/LevDepProps` | `foundP` grows with the entries within the bound; scripts under other costs, scaled, read backwards and renamed; C255 |
| C254 | model of C79; `Auto/MatchDepProps` | from C79: the results are strictly increasing lists with known members; steps composed, reversed and renamed |
| C255 | model of C63; `Trie/LevCutProps` | members of `foundP` by induction over frames: a key is reached exactly if no row on its path is cut off |
| C32, C70 (arguments) | `Index/Model`, `Index/V3Model`; `Index/ArgProps` | the sizes, filter size and case sensitivity kept by the objects are the arguments of the constructors; added after a mutation that ignored `filter_n` survived |
| C46–C48 | `==`, history independence, constructor | from the refinement; asymmetry of `==` by witness |

Statuses and theorem names are in `MANIFEST.json`.

## Findings about the code

* `ngram_movers_distance`: n-gram counts may be ≤ 0 when `n > len(word)+2`; the raw
  distance can then be negative, normalised distance between identical short words
  is 1, and normalising can raise `ZeroDivisionError`.
* The normalised distance violates the triangle inequality.
* With floats `ngram_movers_distance` and the scores of `WordSet` are not exactly symmetric (C108, C136),
  and the order of the words in a bag can change the last bit of the bag distance (C140).
* `WordList.lookup` raises `ZeroDivisionError` whenever some configured `n` yields
  exactly one n-gram for the query and some candidate exists
  (e.g. 2-letter queries with the default `n=(2,4)`).
* `WordList.lookup(normalize=False)` may not return an exact match first.
* With `n=1` in the list `num_grams` (len+2) disagrees with `get_n_grams` (len).
* `WordSet.find_similar` validates `min_similarity` but never applies it.
* `WordSet` set operators (`&`, `|`, `-`, `^`, `&=`) raise `TypeError` (keyword-only ctor, C112).
* `ws ^= S` is not the symmetric difference if `S` holds two spellings of a word (C109), and
  `<=` against a Python set compares spellings where `>=` compares normal forms (C111).
* `emd_1d_slow` and `emd_1d_old` differ from `emd_1d_dp` when points are further than 1
  apart, `emd_1d_hybrid` when they are further than 2 apart (both bounds sharp).
* With floats `emd_1d_hybrid` and `emd_1d_old` lose small distances in `min + len - 1`: the result can be 0 for
  different points (C150).
* The second branch of the large-end loop of `emd_1d_old` (line 510) indexes the wrong
  list; it is unreachable (`oldLarge_dead`).
* `Trie`: with an empty-token key stored `len` raises `AssertionError`, `items` omits the key, and
  when it is the only key it can be neither popped nor deleted (`KeyError`).
* `Trie.pop()` raises `KeyError` when tokenizing a detokenized key does not give it back.
* `Trie.sort_keys(ascending=False)` is not the reverse of the ascending order.
* `Trie` slices lose keys on unsorted tries and after the default (case-folding) `sort_keys()`;
  open-ended slices raise `TypeError`.
* `Trie.search(allow_overlapping=True)` is documented to return the first shortest match; it returns
  the longest among those with the smallest end, which can start later than another match.
* `Trie.levenshtein_lookup` and `damerau_levenshtein_lookup` can miss keys when `transposition_cost`
  is less than every other cost (the cut-off looks at one row only).
* `damerau_levenshtein_distance` computes the optimal string alignment distance, not the documented
  number of edits and transpositions ("ca" → "abc" gives 3, two steps suffice); it is not a metric.
* `ApproxWordListV5b` fixes the `ZeroDivisionError`s of V5; it answers queries containing a marker with `[]`
  where V5 raises, and reports non-positive sizes inside an iterable `n` as `TypeError`.
* With floats, the normalised score of a stored word for itself in `ApproxWordListV5b` can be above or below
  1.0 (C228), because each contribution is divided before it is added; V5 and V6 give exactly 1.0 (C129).
* `ApproxWordListV3.vocabulary` reads itself and always raises `RecursionError`; `lookup` raises
  `IndexError` when nothing matches, and a stored word equal to the query can come second.
* `extended_edit_distance(s, s)` is `rho/(len(s)+2+rho)`, not 0: gap 0 of the padded hypothesis is never
  visited.
* `NFA.to_dfa` never marks the start state final: the empty word is never accepted, and neither is any
  word that leads back to the start set (the conversion of `a*` accepts nothing). `find_all_matches`
  therefore never yields an empty entry.
* `DFA.next_valid_string` raises `ValueError` when the search has to move past U+10FFFF.
* `DAWG.insert` after `finalize` is not rejected: it continues from the root and stores a wrong word, can
  lose a stored one, and the inserted word is not found. `get_index(-1)` returns the empty word, smaller
  positions raise `TypeError`. Position queries before `finalize` raise `TypeError`.
* `Dawg` of `dawg-orig.py`: `lookup` before `finish` and after insertions following `finish` silently returns
  data of other words (C143).
* `deep_sizeof` raises `AttributeError` for objects with an unassigned slot: line 96 allows for it, line 102 does
  not (C145).
* `sentence_split_tokens`: `start_pos` counts from the start of the stripped paragraph, so tokens of later
  paragraphs (or after leading whitespace) do not carry their position in the text.
* `Trie.to_regex`: `fuzzy_quotes` has no effect; `_pattern[3:] == '(?:'` (line 556) never holds; two of the five
  rewriting passes never find anything; with the default options some keys are not matched (C100). An empty
  trie gives a pattern that matches the empty text. `{" ", "  "}` gives the lazy `\s+?`.
* The function `to_regex` lower-cases the strings by default and sets no flag: the pattern of `to_regex(["Bob"])` does
  not match "Bob" (C156). `Trie.nbytes` raises `AssertionError` if tokenizer and detokenizer are one object (C155).
* `emd_1d_dp_cython` leaks the first array if `len(positions_y)` raises (C114), may raise `MemoryError` on empty
  input (`malloc(0)`, C115), and uses rows of the longer length, not the documented O(min(N, M)) (C116).
* With `normalize_nfd_strip_marks` and the default `case_sensitive=False`, U+0345 (iota subscript) is not ignored: it is
  case-folded to a letter before marks are removed (C164).
* `WordSet` is not safe for unsynchronised writers: C161, C162.
* `WordList.lookup`: more than `2 * top_k` words tied in the score are cut before the bigram similarity is compared, so the
  first result can depend on `top_k` (C206), and adding a word can change the answer
  without the word being part of it (C209).
* `Trie.process_file`: see C121; it also ignores a detokenizer given to the trie, and a failing removal of the old
  output or renaming leaves the `.partial` file. `format_seconds` raises `IndexError` from a week on (C123).
