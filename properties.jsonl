{"id": "C01", "title": "emd_1d_dp returns the optimal transport cost", "statement": "emd_1d_dp(xs, ys) is the minimum, over every way of pairing some points of xs one-to-one with some points of ys (crossing pairings included), of the sum of |x-y| over the pairs plus 1 per point left unpaired on either side; the minimum is attained.", "quantifier": "all finite sequences xs, ys of numbers (any order, duplicates, any magnitude)", "why_tests_cant": "the space of pairings is factorial and the inputs are unbounded; tests compare implementations on a handful of grids", "anchors": ["nmd/emd_1d.py:emd_1d_dp"]}
{"id": "C02", "title": "emd_1d_dp is symmetric", "statement": "emd_1d_dp(xs, ys) == emd_1d_dp(ys, xs).", "quantifier": "all pairs of finite number sequences", "why_tests_cant": "the code swaps the arguments depending on length; equal-length inputs take a different path; tests sample a few combinations", "anchors": ["nmd/emd_1d.py:emd_1d_dp", "tests/test_emd_correctness.py:TestEMDCorrectness.test_symmetry"]}
{"id": "C03", "title": "emd_1d_dp ignores the order of the points", "statement": "Reordering the elements of either argument does not change the result.", "quantifier": "all finite sequences and all permutations of them", "why_tests_cant": "there are n!*m! reorderings", "anchors": ["nmd/emd_1d.py:emd_1d_dp"]}
{"id": "C04", "title": "emd_1d_dp is zero exactly on equal multisets", "statement": "emd_1d_dp(xs, ys) == 0 if and only if xs and ys contain the same points with the same multiplicities.", "quantifier": "all pairs of finite number sequences", "why_tests_cant": "the 'only if' direction ranges over all non-equal inputs", "anchors": ["nmd/emd_1d.py:emd_1d_dp"]}
{"id": "C05", "title": "emd_1d_dp obeys the triangle inequality", "statement": "emd_1d_dp(xs, zs) <= emd_1d_dp(xs, ys) + emd_1d_dp(ys, zs) (the metric claim in the emd_1d_old docstring).", "quantifier": "all triples of finite number sequences of any lengths", "why_tests_cant": "a universally quantified inequality over triples of unbounded inputs", "anchors": ["nmd/emd_1d.py:emd_1d_dp", "nmd/emd_1d.py:emd_1d_old"]}
{"id": "C06", "title": "emd_1d_dp bounds", "statement": "The result is at least the difference of the two lengths, at most the sum of the lengths, and at most the longer length when all points lie within distance 1 of each other (e.g. positions in [0, 1]).", "quantifier": "all pairs of finite number sequences", "why_tests_cant": "bounds over all inputs; the index's pruning rule relies on the last one", "anchors": ["nmd/emd_1d.py:emd_1d_dp"]}
{"id": "C07", "title": "emd_1d_slow agrees with emd_1d_dp on normalised positions", "statement": "When every x is within 1 of every y (positions in [0,1]) the brute-force emd_1d_slow and emd_1d_dp return the same number; the bound 1 is sharp (for any d > 1, emd_1d_slow([0],[d]) is 1 and emd_1d_dp([0],[d]) is more).", "quantifier": "all pairs of finite sequences with pairwise distance at most 1", "why_tests_cant": "equivalence of an exponential search and a DP on unbounded inputs", "anchors": ["nmd/emd_1d.py:emd_1d_slow", "nmd/emd_1d.py:emd_1d_dp"]}
{"id": "C08", "title": "emd_1d_hybrid agrees with emd_1d_dp whenever points are within distance 2", "statement": "For positions in [0,1], and more generally whenever every x is within 2 of every y, emd_1d_hybrid returns exactly the optimal cost computed by emd_1d_dp; the bound 2 is sharp.", "quantifier": "all pairs of finite sequences with pairwise distance at most 2", "why_tests_cant": "correctness of de-duplication, component splitting and greedy end matching on all inputs", "anchors": ["nmd/emd_1d.py:emd_1d_hybrid", "nmd/emd_1d.py:emd_1d_dp", "tests/test_emd_correctness.py:check_emd_implementations"]}
{"id": "C09", "title": "emd_1d_old agrees with emd_1d_dp and never indexes an empty list", "statement": "For positions in [0,1] (pairwise distance at most 1) emd_1d_old terminates without IndexError and returns exactly the optimal cost computed by emd_1d_dp; for distances up to 3/2 it can return less than the optimum.", "quantifier": "all pairs of finite sequences with pairwise distance at most 1", "why_tests_cant": "the code comments claim connected_x is never shorter than connected_y and that components are independent; both are claims about all inputs", "anchors": ["nmd/emd_1d.py:emd_1d_old"]}
{"id": "C10", "title": "ngram_movers_distance rejects invalid input and nothing else", "statement": "ngram_movers_distance raises TypeError for a non-str word or non-int n, ValueError for a word containing U+0002/U+0003 or n < 2, checked in the documented order, before any computation; with normalize it raises ZeroDivisionError exactly when the two n-gram counts sum to zero; otherwise it returns a number.", "quantifier": "all arguments", "why_tests_cant": "ranges over all arguments and option combinations", "anchors": ["nmd/nmd_core.py:ngram_movers_distance"]}
{"id": "C11", "title": "ngram_movers_distance is the summed per-n-gram EMD", "statement": "The unnormalised distance equals the sum, over every n-gram occurring in either padded word, of the optimal transport cost between its relative positions in the two words (the equation in the source comment), although the code computes it through the similarity over shared n-grams only.", "quantifier": "all words without marker characters, all n >= 2 not larger than the padded words", "why_tests_cant": "identity between two different computations on all words", "anchors": ["nmd/nmd_core.py:ngram_movers_distance"]}
{"id": "C12", "title": "A word has distance 0 and full similarity to itself", "statement": "ngram_movers_distance(w, w, n) == 0; with invert it is twice the number of n-grams; with invert and normalize it is 1 (for words having at least one n-gram).", "quantifier": "all valid words and n", "why_tests_cant": "all words", "anchors": ["nmd/nmd_core.py:ngram_movers_distance"]}
{"id": "C13", "title": "Distance 0 only between equal words", "statement": "If both padded words have at least one n-gram and ngram_movers_distance(a, b, n) == 0 then a == b.", "quantifier": "all pairs of valid words and all n >= 2", "why_tests_cant": "universal over unequal pairs; needs that n-gram positions determine the word", "anchors": ["nmd/nmd_core.py:ngram_movers_distance"]}
{"id": "C14", "title": "ngram_movers_distance is symmetric", "statement": "ngram_movers_distance(a, b, n, invert, normalize) == ngram_movers_distance(b, a, n, invert, normalize), including whether it raises.", "quantifier": "all pairs of words, n, and flags", "why_tests_cant": "all inputs; the loop iterates over the first word's n-grams only", "anchors": ["nmd/nmd_core.py:ngram_movers_distance"]}
{"id": "C15", "title": "ngram_movers_distance obeys the triangle inequality", "statement": "The unnormalised distance satisfies d(a,c) <= d(a,b) + d(b,c).", "quantifier": "all triples of valid words that have at least one n-gram", "why_tests_cant": "triples of unbounded strings", "anchors": ["nmd/nmd_core.py:ngram_movers_distance"]}
{"id": "C16", "title": "Distance and similarity are complementary", "statement": "distance + similarity == number of n-grams of a + number of n-grams of b, and the normalised versions sum to 1 whenever they are defined.", "quantifier": "all pairs of valid words and n", "why_tests_cant": "all inputs", "anchors": ["nmd/nmd_core.py:ngram_movers_distance"]}
{"id": "C17", "title": "Scores stay in range", "statement": "The normalised distance and similarity lie in [0, 1] whenever they are defined; the unnormalised distance and similarity lie between 0 and the total n-gram count when both words have at least one n-gram (for shorter words the raw distance can be negative).", "quantifier": "all pairs of valid words and n", "why_tests_cant": "README promises 0..1 inclusive for every input", "anchors": ["nmd/nmd_core.py:ngram_movers_distance", "README.md"]}
{"id": "C18", "title": "Normalised distance is 1 exactly when no n-gram is shared", "statement": "For words with at least one n-gram, ngram_movers_distance(a, b, n, normalize=True) == 1 iff the padded words have no n-gram in common.", "quantifier": "all pairs of valid words and n", "why_tests_cant": "all inputs", "anchors": ["nmd/nmd_core.py:ngram_movers_distance"]}
{"id": "C19", "title": "The normalised distance is not a metric", "statement": "There are words for which the normalised distance violates the triangle inequality, so only the raw distance may be used as a metric.", "quantifier": "existence (a concrete triple), complementing the universal claim for the raw distance", "why_tests_cant": "documents the limit of a universally quantified claim", "anchors": ["nmd/nmd_core.py:ngram_movers_distance"]}
{"id": "C20", "title": "bow distance is the optimal assignment cost", "statement": "bow_ngram_movers_distance(a, b) is |len(a)-len(b)| plus the least total normalised word distance over all one-to-one assignments of the shorter bag into the longer one.", "quantifier": "all bags of valid words, all n, any optimal-assignment solver", "why_tests_cant": "factorially many assignments, unbounded bags", "anchors": ["nmd/nmd_bow.py:bow_ngram_movers_distance"]}
{"id": "C21", "title": "bow distance is order-independent, symmetric, and zero on equal bags", "statement": "Permuting either bag, swapping the two bags, or using another optimal assignment solver does not change the result; for words having an n-gram the distance is 0 exactly when the two bags hold the same words with the same multiplicities.", "quantifier": "all bags and permutations", "why_tests_cant": "all permutations", "anchors": ["nmd/nmd_bow.py:bow_ngram_movers_distance"]}
{"id": "C22", "title": "bow scores are complementary and in range", "statement": "bow distance + bow similarity == max(len(a), len(b)); both are between 0 and that; normalised scores lie in [0,1] and sum to 1; two empty bags with normalize raise ZeroDivisionError.", "quantifier": "all bags of valid words, all flags", "why_tests_cant": "all inputs", "anchors": ["nmd/nmd_bow.py:bow_ngram_movers_distance"]}
{"id": "C23", "title": "WordList.vocabulary is exactly the set of added words", "statement": "After any sequence of add_word calls, vocabulary is the sorted, duplicate-free list of the (case-folded) words whose add_word succeeded.", "quantifier": "all histories of add_word calls", "why_tests_cant": "all histories", "anchors": ["nmd/nmd_index.py:ApproxWordListV6.add_word", "nmd/nmd_index.py:ApproxWordListV6.vocabulary"]}
{"id": "C24", "title": "WordList.add_word is idempotent and atomic", "statement": "Adding a word already present changes nothing; an add_word that raises changes nothing; words differing only by case folding are the same word in a case-insensitive list.", "quantifier": "all histories and words", "why_tests_cant": "all histories", "anchors": ["nmd/nmd_index.py:ApproxWordListV6.add_word"]}
{"id": "C25", "title": "WordList lookup never mutates and is deterministic", "statement": "lookup returns the same result when repeated, and the state (hence every later answer) is unaffected by lookups interleaved in any history.", "quantifier": "all interleavings of add_word and lookup", "why_tests_cant": "all interleavings", "anchors": ["nmd/nmd_index.py:ApproxWordListV6.lookup"]}
{"id": "C26", "title": "WordList.lookup returns known, distinct words, at most top_k, best first", "statement": "Every returned word is in the vocabulary, no word is returned twice, at most top_k entries are returned, and entries are in non-increasing (score, 2-gram similarity) order.", "quantifier": "all histories, queries, top_k, dim > 0, flags", "why_tests_cant": "all inputs", "anchors": ["nmd/nmd_index.py:ApproxWordListV6.lookup"]}
{"id": "C27", "title": "WordList.lookup scores are the true n-gram similarities", "statement": "The score returned for a word is the power mean over the configured n of the summed per-n-gram similarity between query and word (divided by the n-gram counts when normalised), i.e. the inverted index computes the same thing as comparing the two strings directly, and the second component is ngram_movers_distance(query, word, invert=True).", "quantifier": "all histories and queries", "why_tests_cant": "inverted index built incrementally over any history", "anchors": ["nmd/nmd_index.py:ApproxWordListV6.add_word", "nmd/nmd_index.py:ApproxWordListV6.lookup"]}
{"id": "C28", "title": "WordList.lookup pruning never loses a better word", "statement": "The number of results is min(top_k, number of vocabulary words that share a filter n-gram and an n-gram with the query), and no such word that is left out scores higher than any word returned: the min-score pruning is sound for every dim > 0.", "quantifier": "all histories, queries, top_k >= 1, real dim > 0, flags", "why_tests_cant": "soundness of a bound-based pruning heuristic over all vocabularies", "anchors": ["nmd/nmd_index.py:ApproxWordListV6.lookup"]}
{"id": "C29", "title": "Each shared n-gram contributes between min and 2*min", "statement": "For an n-gram occurring c times in the query and c' times in the word, its similarity contribution lies between min(c,c') and 2*min(c,c') (the bound the pruning comment relies on).", "quantifier": "all position lists in [0,1]", "why_tests_cant": "all inputs", "anchors": ["nmd/nmd_index.py:ApproxWordListV6.lookup", "nmd/emd_1d.py:emd_1d_dp"]}
{"id": "C30", "title": "WordList.lookup raises ZeroDivisionError exactly for degenerate n-gram counts", "statement": "With valid arguments lookup raises ZeroDivisionError if and only if some eligible word exists and either some configured n yields exactly one n-gram for the query, or normalize=True and for some n and some unpruned eligible word the two n-gram counts add up to 0. It never raises when n <= len(q)+1 for every n (len(q) >= 2 if n=1 is configured) and, if normalising, 2n <= len(q)+6.", "quantifier": "all histories and queries", "why_tests_cant": "needs the exact failing set over all inputs", "anchors": ["nmd/nmd_index.py:ApproxWordListV6.lookup"]}
{"id": "C31", "title": "Exact match ranks first with normalize=True", "statement": "If the (case-folded) query is in the vocabulary, all n >= 2 and the query is long enough, lookup(query, normalize=True) returns the query first with score 1; every other returned word scores below 1. (Without normalize another word can tie with and displace it.)", "quantifier": "all histories and queries", "why_tests_cant": "all vocabularies; ties need a structural argument", "anchors": ["nmd/nmd_index.py:ApproxWordListV6.lookup"]}
{"id": "C32", "title": "The filter only removes words sharing no filter n-gram", "statement": "With filter_n = 0 every vocabulary word sharing an n-gram is eligible; with filter_n > 0 a word is eligible iff it additionally shares a filter_n-gram with the query.", "quantifier": "all histories, queries, filter sizes", "why_tests_cant": "all histories", "anchors": ["nmd/nmd_index.py:ApproxWordListV6.add_word", "nmd/nmd_index.py:ApproxWordListV6.lookup"]}
{"id": "C33", "title": "Case-insensitive lookup depends only on the folded query", "statement": "In a case-insensitive list lookup(q) == lookup(casefold(q)).", "quantifier": "all histories and queries", "why_tests_cant": "all inputs", "anchors": ["nmd/nmd_index.py:ApproxWordListV6.lookup"]}
{"id": "C34", "title": "ApproxWordListV5.lookup result contract", "statement": "V5 lookup returns at most 2*top_k distinct vocabulary words, sorted by reported value in descending order, containing the top_k best-scoring eligible words; with invert=False the reported value is 1-score (normalised) or -score.", "quantifier": "all histories, queries, top_k, flags", "why_tests_cant": "all inputs", "anchors": ["nmd/nmd_index.py:ApproxWordListV5.lookup"]}
{"id": "C35", "title": "WordSet behaves like a mathematical set of normalised words", "statement": "For any sequence of calls (add, discard, remove, clear, pop, |=, -=, in, len, iteration, find_similar, suggest) every observed result or exception is the one of an abstract insertion-ordered set of (normalised word, original first added).", "quantifier": "all operation histories and any deterministic normaliser", "why_tests_cant": "all histories", "anchors": ["nmd/nmd_word_set.py:WordSet.add", "nmd/nmd_word_set.py:WordSet.discard", "nmd/nmd_word_set.py:WordSet.__contains__", "nmd/nmd_word_set.py:WordSet.__len__", "nmd/nmd_word_set.py:WordSet.__iter__"]}
{"id": "C36", "title": "WordSet operations that raise leave the set unchanged", "statement": "add, discard, remove, pop that raise (non-str, empty, normaliser error, NUL byte, missing key) leave the whole state unchanged.", "quantifier": "all histories and arguments", "why_tests_cant": "all histories", "anchors": ["nmd/nmd_word_set.py:WordSet.add", "nmd/nmd_word_set.py:WordSet.remove"]}
{"id": "C37", "title": "WordSet.remove raises KeyError exactly for absent words", "statement": "remove(w) raises KeyError iff the normalised word is absent, else behaves like discard.", "quantifier": "all histories", "why_tests_cant": "all histories", "anchors": ["nmd/nmd_word_set.py:WordSet.remove"]}
{"id": "C38", "title": "WordSet's filter index never dangles", "statement": "After any history every id in the filter index refers to a live word, every live word is listed under each of its filter n-grams, no bucket is empty; hence find_similar never raises KeyError.", "quantifier": "all histories", "why_tests_cant": "ids are never reused except after clear; needs an invariant over all histories", "anchors": ["nmd/nmd_word_set.py:WordSet.add", "nmd/nmd_word_set.py:WordSet.discard", "nmd/nmd_word_set.py:WordSet.find_similar"]}
{"id": "C39", "title": "WordSet.find_similar returns the k best candidates, best first", "statement": "The result contains min(k, number of candidates) entries, each a live word with its true combined similarity, in non-increasing score order with ties by insertion order, and no omitted candidate scores higher than a returned one.", "quantifier": "all histories, queries, k >= 1", "why_tests_cant": "all histories", "anchors": ["nmd/nmd_word_set.py:WordSet.find_similar"]}
{"id": "C40", "title": "WordSet.find_similar scores lie in [0,1] and equal 1 only for the query itself", "statement": "Scores are in [0,1] (the clamp never changes a value) and a score of 1 is returned exactly for the word whose normalised form equals the normalised query.", "quantifier": "all histories and queries", "why_tests_cant": "all words", "anchors": ["nmd/nmd_word_set.py:WordSet.find_similar"]}
{"id": "C41", "title": "WordSet.find_similar finds an exact member first", "statement": "If the query is a member and is long enough for the filter size, find_similar(query) returns its original spelling first with score 1.", "quantifier": "all histories and queries", "why_tests_cant": "all histories", "anchors": ["nmd/nmd_word_set.py:WordSet.find_similar"]}
{"id": "C42", "title": "WordSet.find_similar validates min_similarity and then ignores it", "statement": "A min_similarity outside [0,1] (or not a number) raises ValueError; every accepted value gives exactly the result of None. So results below the threshold are returned: the documented filter is not applied.", "quantifier": "all histories, queries, thresholds", "why_tests_cant": "universal claim; a single passing test proves nothing", "anchors": ["nmd/nmd_word_set.py:WordSet.find_similar"]}
{"id": "C43", "title": "WordSet.suggest lists the words of find_similar", "statement": "suggest(q, k) is the list of words of find_similar(q, k).", "quantifier": "all histories", "why_tests_cant": "all inputs", "anchors": ["nmd/nmd_word_set.py:WordSet.suggest"]}
{"id": "C44", "title": "WordList.lookup argument validation", "statement": "lookup raises TypeError for a non-string word, ValueError for an empty word, TypeError for a non-integer top_k, ValueError for top_k <= 0, and AssertionError if the folded word contains '\\2' or '\\3', in that order.", "quantifier": "all argument values and all list states", "why_tests_cant": "The order of checks and the absence of other exceptions quantifies over all dynamic values and states.", "anchors": ["nmd/nmd_index.py: WordList.lookup"]}
{"id": "C45", "title": "Insertion order does not affect the returned scores", "statement": "Two lists built with the same configuration and holding the same vocabulary raise the same exceptions and otherwise return the same list of primary scores for the same query, whatever order the words were added in (the words may differ among ties).", "quantifier": "all histories giving the same vocabulary, all queries, all top_k, all monotone aggregates", "why_tests_cant": "The pruning threshold depends on the order in which candidates are visited; equality must hold for all permutations of additions.", "anchors": ["nmd/nmd_index.py: WordList.add_word, WordList.lookup, __lookup_similarity"]}
{"id": "C46", "title": "WordSet equality compares normalised contents", "statement": "Between WordSets with the same normalisation, == never raises and is true iff the sets of normalised words coincide, whatever the spelling, insertion order or history; between sets of different normalisation == is not symmetric.", "quantifier": "all pairs of histories", "why_tests_cant": "pairs of histories", "anchors": ["nmd/nmd_word_set.py:WordSet.__contains__", "nmd/nmd_word_set.py:WordSet.__iter__", "nmd/nmd_word_set.py:WordSet.__len__"]}
{"id": "C47", "title": "WordSet behaviour is independent of its construction history", "statement": "Two WordSets with the same configuration that iterate the same words answer every future sequence of calls identically, however they were built.", "quantifier": "all pairs of histories and all continuations", "why_tests_cant": "internal ids and indexes differ; only an invariant shows they never leak", "anchors": ["nmd/nmd_word_set.py:WordSet.add", "nmd/nmd_word_set.py:WordSet.discard", "nmd/nmd_word_set.py:WordSet.find_similar"]}
{"id": "C48", "title": "WordSet constructor validation", "statement": "Construction succeeds iff case_sensitive is a bool, the normaliser is callable or None and ngram_sizes is a positive int or a non-empty iterable of positive ints; the sizes are then the requested ones in strictly ascending order and the set is empty. Otherwise TypeError, or ValueError for a non-positive int.", "quantifier": "all arguments", "why_tests_cant": "all argument combinations", "anchors": ["nmd/nmd_word_set.py:WordSet.__init__"]}
{"id": "C49", "title": "The aggregate used by WordList is a mean", "statement": "For real dim > 0 and non-negative scores, mean(vec, dim) lies between the smallest and largest score, is invariant under reordering, scales with the scores, and is the arithmetic mean for dim = 1; with it lookup pruning is sound and an exact match scores exactly 1.", "quantifier": "all real dim > 0, all score vectors", "why_tests_cant": "real exponents and all vectors", "anchors": ["nmd/nmd_index.py:mean"]}
{"id": "C50", "title": "When bow_ngram_movers_distance raises", "statement": "The call raises exactly when both bags are non-empty and some word of either bag or n is unusable (not a str, contains a marker character, n not an int >= 2), or when both bags are empty and normalize is set. If one bag is empty nothing is validated and the distance is the size of the other bag.", "quantifier": "all bags of arbitrary values, all n of any type, all flags, any optimal-assignment solver", "why_tests_cant": "all argument combinations, including the absence of any other exception", "anchors": ["nmd/nmd_bow.py:bow_ngram_movers_distance", "nmd/nmd_core.py:ngram_movers_distance"]}
{"id": "C51", "title": "bow distance on single words, and failure of the triangle inequality", "statement": "bow_ngram_movers_distance([v], [w]) equals ngram_movers_distance(v, w, normalize=True); consequently the bag distance is not a metric: there are bags a, b, c with d(a,c) > d(a,b) + d(b,c).", "quantifier": "all valid words v, w and all n; existence of a counterexample for every optimal solver", "why_tests_cant": "the first part ranges over all words; the second shows a claim users may assume is false", "anchors": ["nmd/nmd_bow.py:bow_ngram_movers_distance"]}
{"id": "C52", "title": "Trie behaves as a dict keyed by token sequences", "statement": "Every sequence of in/get/[]/set/setdefault/pop/del/len/update calls on a Trie, starting from the empty one, returns exactly the values and exceptions that a dict from token sequences to values would, provided no key has an empty token sequence and the tokenizer and detokenizer round-trip on keys.", "quantifier": "all call sequences of any length, all keys and values, all tokenizers and detokenizers that round-trip", "why_tests_cant": "state space of call sequences and nested nodes is unbounded", "anchors": ["experiments/find_replace_trie.py:Trie.__getitem__", "experiments/find_replace_trie.py:Trie.__setitem__", "experiments/find_replace_trie.py:Trie.__delitem__", "experiments/find_replace_trie.py:Trie.pop", "experiments/find_replace_trie.py:Trie.setdefault", "experiments/find_replace_trie.py:Trie.__contains__", "experiments/find_replace_trie.py:Trie.__len__", "experiments/find_replace_trie.py:Trie.update"]}
{"id": "C53", "title": "Trie length", "statement": "len(trie) equals the number of items it yields as long as no empty-token key was stored; with such a key stored len raises AssertionError.", "quantifier": "all call sequences", "why_tests_cant": "all histories including deletions of prefixes and extensions of other keys", "anchors": ["experiments/find_replace_trie.py:Trie.__len__", "experiments/find_replace_trie.py:Trie.items"]}
{"id": "C54", "title": "Deleting from a Trie leaves no dead branches", "statement": "After any sequence of calls every node other than the root has a value or a descendant with a value, so storage is bounded by the live keys.", "quantifier": "all call sequences", "why_tests_cant": "invariant over all reachable structures, not visible in return values", "anchors": ["experiments/find_replace_trie.py:Trie.__delitem__", "experiments/find_replace_trie.py:Trie.pop"]}
{"id": "C55", "title": "Trie.items yields each item once, keys before their extensions", "statement": "items() yields every stored non-empty key with its value exactly once, and a key comes before all keys extending it. keys() and values() run in parallel with it: the i-th value is trie[k] for the i-th key k.", "quantifier": "all call sequences", "why_tests_cant": "all reachable tries", "anchors": ["experiments/find_replace_trie.py:Trie.items", "experiments/find_replace_trie.py:Trie.keys", "experiments/find_replace_trie.py:Trie.values"]}
{"id": "C56", "title": "The empty key of a Trie is a trap", "statement": "A key with an empty token sequence can be stored and read, but items() never yields it and, if it is the only key, pop and del raise KeyError and leave it stored.", "quantifier": "all values, all tokenizers", "why_tests_cant": "shows a defect for every value, not one example", "anchors": ["experiments/find_replace_trie.py:Trie.__setitem__", "experiments/find_replace_trie.py:Trie.__delitem__", "experiments/find_replace_trie.py:Trie.pop", "experiments/find_replace_trie.py:Trie.items"]}
{"id": "C57", "title": "sort_keys changes only the iteration order", "statement": "sort_keys() never changes the mapping; afterwards items come in strictly increasing lexicographic order of tokens when the token order separates tokens. Descending order is not the reverse, since a key still precedes its extensions.", "quantifier": "all call sequences before and after, all token orders", "why_tests_cant": "all tries and all later operations", "anchors": ["experiments/find_replace_trie.py:Trie.sort_keys", "experiments/find_replace_trie.py:Trie.items"]}
{"id": "C58", "title": "Trie slices", "statement": "On a trie sorted by plain token order trie[a:b] and del trie[a:b] concern exactly the keys from a up to but not including b. On an unsorted trie, or after the default case-folding sort_keys, keys can be lost; open-ended slices raise TypeError.", "quantifier": "all call sequences, all bounds", "why_tests_cant": "all tries and bounds; the exceptions are witnessed", "anchors": ["experiments/find_replace_trie.py:Trie.__getitem__", "experiments/find_replace_trie.py:Trie.__delitem__", "experiments/find_replace_trie.py:Trie.sort_keys"]}
{"id": "C59", "title": "finditer finds the leftmost-longest matches", "statement": "finditer(text) never raises and yields exactly the occurrences of the unique leftmost-longest cutting of the text: at each position the longest stored key starting there is taken whole, otherwise one token is skipped. The matches are disjoint, in order, and each is a stored key that really occurs at its position.", "quantifier": "all tries, all texts, all tokenizers", "why_tests_cant": "the one-pass algorithm keeps sets of open spans and pending matches; its agreement with the greedy definition must hold for all overlap patterns", "anchors": ["experiments/find_replace_trie.py:Trie.finditer"]}
{"id": "C60", "title": "finditer with overlaps finds everything", "statement": "finditer(text, allow_overlapping=True) yields every occurrence of every stored non-empty key exactly once, ordered by end and then start.", "quantifier": "all tries, all texts", "why_tests_cant": "completeness over all occurrences in all texts", "anchors": ["experiments/find_replace_trie.py:Trie.finditer"]}
{"id": "C61", "title": "translate replaces the leftmost-longest matches", "statement": "translate(text) never raises and returns the text with each leftmost-longest match replaced by its value and all other tokens unchanged; a text without matches is unchanged.", "quantifier": "all tries, all texts, all tokenizers", "why_tests_cant": "streaming buffer, spans and matches interact for all overlap patterns", "anchors": ["experiments/find_replace_trie.py:Trie.translate", "experiments/find_replace_trie.py:Trie._translate_tokens"]}
{"id": "C62", "title": "search and findall", "statement": "search(text) returns None exactly if no stored key occurs, else a longest match among the leftmost ones; with overlaps allowed it returns the occurrence with the smallest end and, among those, the longest (neither leftmost nor shortest in general). findall lists the texts of the matches.", "quantifier": "all tries, all texts", "why_tests_cant": "all texts; absence of matches", "anchors": ["experiments/find_replace_trie.py:Trie.search", "experiments/find_replace_trie.py:Trie.findall"]}
{"id": "C63", "title": "levenshtein_lookup is exact", "statement": "On a character trie reached by any calls, levenshtein_lookup(word, distance, ...) yields exactly the stored non-empty keys that some edit script (insertions, deletions, substitutions, adjacent transpositions at the given costs) of cost at most distance makes out of word, each once, in the order of keys(). This needs a transposition not cheaper than the cheapest other operation; with cheaper transpositions everything yielded is right, but keys can be missing (the row-minimum cut-off is then unsound).", "quantifier": "all call histories, all non-empty words, all non-negative bounds and costs", "why_tests_cant": "correctness of the pruned depth-first search with a shared DP table against all edit scripts; unbounded keys and costs", "anchors": ["experiments/find_replace_trie.py:Trie.levenshtein_lookup"]}
{"id": "C64", "title": "damerau_levenshtein_lookup equals levenshtein_lookup", "statement": "For a non-negative transposition cost damerau_levenshtein_lookup yields the same keys in the same order as levenshtein_lookup, or raises the same AssertionError; both reject non-character tokenizers, empty words, negative bounds and negative insertion, deletion or substitution costs; a negative transposition cost is rejected by the first and accepted by the second.", "quantifier": "all tries, words, bounds and costs", "why_tests_cant": "equality of two implementations with different row layouts (wrap-around index) for all inputs", "anchors": ["experiments/find_replace_trie.py:Trie.damerau_levenshtein_lookup", "experiments/find_replace_trie.py:Trie.levenshtein_lookup"]}
{"id": "C65", "title": "findall_longest covers as much as possible", "statement": "findall_longest(text) never raises (its internal assertions hold) and returns from left to right the texts of non-overlapping occurrences of stored keys whose total number of tokens is the largest possible for non-overlapping occurrences.", "quantifier": "all tries, all texts, all tokenizers", "why_tests_cant": "optimality over all sets of non-overlapping occurrences", "anchors": ["experiments/find_replace_trie.py:Trie.findall_longest"]}
{"id": "C66", "title": "edit_distance is the least number of edits", "statement": "edit_distance(s1, s2) never raises and returns the smallest number of single-character insertions, deletions and substitutions, applied one after another anywhere, that turn s1 into s2; levenshtein(s1, s2) returns the same.", "quantifier": "all pairs of sequences", "why_tests_cant": "minimality over all sequences of edits", "anchors": ["experiments/edit_distance.py:edit_distance", "experiments/automata.py:levenshtein"]}
{"id": "C67", "title": "levenshtein is a metric with length bounds", "statement": "levenshtein is zero exactly on equal strings, symmetric, satisfies the triangle inequality, is at least the difference of the lengths and at most the larger length.", "quantifier": "all triples of strings", "why_tests_cant": "universal inequality over three strings", "anchors": ["experiments/automata.py:levenshtein"]}
{"id": "C68", "title": "damerau_levenshtein_distance is optimal string alignment", "statement": "damerau_levenshtein_distance never raises and returns the least cost of an edit script with adjacent transpositions that touches each character at most once; it is symmetric, zero exactly on equal sequences, and lies between half the Levenshtein distance and the Levenshtein distance. It is not always the documented least number of edits and transpositions, and it violates the triangle inequality.", "quantifier": "all pairs of sequences", "why_tests_cant": "minimality over all edit scripts", "anchors": ["experiments/edit_distance.py:damerau_levenshtein_distance"]}
{"id": "C69", "title": "BK-tree search is exact", "statement": "After BKNode(first) and any inserts, search(term, k) returns exactly the inserted terms (including first) that can be turned into term with at most k edits, for every integer k (none if k is negative); neither call raises.", "quantifier": "all first terms, insert sequences, queries and integers k", "why_tests_cant": "the pruning by distance range is only sound because of the triangle inequality", "anchors": ["experiments/automata.py:BKNode.insert", "experiments/automata.py:BKNode.search"]}
{"id": "C70", "title": "ApproxWordListV3.lookup returns the ranked matching words", "statement": "After any sequence of add_word calls on an ApproxWordListV3 with positive n-gram sizes, lookup of a valid query raises ZeroDivisionError if some size is len(query)+2, else IndexError if no stored word shares an n-gram, else ZeroDivisionError if some size is len(query)+3, else returns the words sharing an n-gram in descending order of the mean over sizes of (sum over shared n-grams of max count minus transport cost) / number of query n-grams, cut off after top_k (all of them if top_k is None, 0 or negative), each with its normalised similarity. Non-strings, empty and marker-containing queries are rejected.", "quantifier": "all constructor arguments with positive sizes, all histories of add_word calls, all queries, all top_k", "why_tests_cant": "the index must agree with direct comparison for every history and every query", "anchors": ["nmd/nmd_index.py:ApproxWordListV3.lookup", "nmd/nmd_index.py:ApproxWordListV3.add_word"]}
{"id": "C71", "title": "ApproxWordListV3 scores lie in [0, 1] and exact matches score 1", "statement": "If all sizes are between 2 and len(query)+1, all scores (dim=1) lie in [0, 1] and looking up a stored word succeeds with score 1 for the first result. The first result need not be the stored word itself.", "quantifier": "all histories, all stored words", "why_tests_cant": "range over all pairs of words", "anchors": ["nmd/nmd_index.py:ApproxWordListV3.lookup"]}
{"id": "C72", "title": "ApproxWordListV3.vocabulary never returns", "statement": "Reading the property vocabulary of an ApproxWordListV3 raises RecursionError for every state and every recursion limit.", "quantifier": "all states, all recursion limits", "why_tests_cant": "a test can only show it for one limit", "anchors": ["nmd/nmd_index.py:ApproxWordListV3.vocabulary"]}
{"id": "C73", "title": "Extended edit distance is the cheapest walk plus the coverage penalty", "statement": "extended_edit_distance(hyp, ref) returns min(1, (E + rho*V)/(len(ref)+2+rho*V)), where E is the least cost of a walk through the alignment grid of the two padded strings (steps: match, substitute, skip, repeat, border step, jump after whitespace) and V sums |visits-1| over all gaps of the padded hypothesis, a gap being visited when it is the leftmost one reached most cheaply.", "quantifier": "all strings, all rational costs, all rho >= 0", "why_tests_cant": "minimum over an unbounded set of walks", "anchors": ["experiments/edit_distance.py:extended_edit_distance"]}
{"id": "C74", "title": "Extended edit distance is total and lies in [0, 1]", "statement": "With non-negative costs extended_edit_distance never raises and returns a number between 0 and 1.", "quantifier": "all strings, all non-negative costs", "why_tests_cant": "range over all inputs and parameters", "anchors": ["experiments/edit_distance.py:extended_edit_distance"]}
{"id": "C75", "title": "Extended edit distance of identical strings is not zero", "statement": "With positive costs the score of a string against itself is rho/(len+2+rho), hence positive for the default parameters; the score is not symmetric in its arguments.", "quantifier": "all strings, all positive costs", "why_tests_cant": "closed form for every length", "anchors": ["experiments/edit_distance.py:extended_edit_distance"]}
{"id": "C76", "title": "to_dfa preserves the language except for the start set", "statement": "After any calls of add_transition and add_final_state, the DFA returned by to_dfa accepts a word exactly when the NFA (with EPSILON and ANY transitions) accepts it and the word does not lead back to the start set of states; in particular the empty word is never accepted and the conversion of a* accepts nothing.", "quantifier": "all NFAs, all words, all set iteration orders", "why_tests_cant": "unbounded automata, words and hash orders", "anchors": ["experiments/automata.py:NFA", "experiments/automata.py:DFA"]}
{"id": "C77", "title": "Levenshtein automaton accepts exactly the words within k edits", "statement": "levenshtein_automaton(word, k).to_dfa() accepts w exactly when w is non-empty and obtainable from word by at most k single-character insertions, deletions and substitutions.", "quantifier": "all words, all k, all w", "why_tests_cant": "infinitely many words on both sides of the bound", "anchors": ["experiments/automata.py:levenshtein_automaton", "experiments/automata.py:NFA.to_dfa"]}
{"id": "C78", "title": "next_valid_string returns the least accepted word from the input on", "statement": "For a Levenshtein automaton and an input without U+10FFFF next_valid_string terminates without exception and returns the lexicographically least accepted word that is not less than the input, or None when there is none. An input starting with U+10FFFF can raise ValueError.", "quantifier": "all words, all k, all inputs", "why_tests_cant": "minimum over an unbounded set, termination", "anchors": ["experiments/automata.py:DFA.next_valid_string", "experiments/automata.py:DFA.find_next_edge"]}
{"id": "C79", "title": "find_all_matches yields exactly the matching entries in order", "statement": "With Matcher on a sorted list without U+10FFFF, find_all_matches(word, k, matcher) terminates without exception and yields, in strictly increasing order and once each, exactly the non-empty entries within k edits of word.", "quantifier": "all words, all k, all sorted lists", "why_tests_cant": "interaction of automaton search with bisect over unbounded databases", "anchors": ["experiments/automata.py:find_all_matches", "experiments/automata.py:Matcher"]}
{"id": "C80", "title": "DAWG stores exactly the accepted words with their data", "statement": "After any calls of DAWG.insert the keys are the words of the accepted calls, in order of insertion, and items pairs each with its own data, before and after finalize. A call is rejected with AssertionError exactly when its word is not greater than the last accepted one (the empty word at the start); strictly increasing non-empty words are all accepted. A second finalize changes nothing.", "quantifier": "all sequences of calls, all alphabets with a total order, recursion limit above the longest word", "why_tests_cant": "suffix sharing rewires nodes on every insertion; unbounded sequences", "anchors": ["experiments/dawg.py:DAWG.insert", "experiments/dawg.py:DAWG.minimize_unchecked", "experiments/dawg.py:DAWG.finalize", "experiments/dawg.py:DAWGNode.__iter__"]}
{"id": "C81", "title": "DAWG index and get_index are inverse perfect hashing", "statement": "After finalize, index(w) is the position of w in the insertion order if w is stored and -1 otherwise; lookup(w) is the data stored with w or None; w in dawg agrees; get_index(index(w)) = w; positions past the end raise AssertionError.", "quantifier": "all sequences of insert calls, all words, all positions", "why_tests_cant": "counts along all paths of a shared graph", "anchors": ["experiments/dawg.py:DAWG.index", "experiments/dawg.py:DAWG.lookup", "experiments/dawg.py:DAWG.step", "experiments/dawg.py:DAWG.get_index", "experiments/dawg.py:DAWGNode.finalize"]}
{"id": "C82", "title": "The finalized DAWG is minimal", "statement": "After finalize, count_nodes is the number of distinct non-empty completion sets of non-empty prefixes, count_edges the number of pairs of such a set and a possible next letter, and no deterministic automaton for the stored words has fewer than count_nodes+1 states.", "quantifier": "all sequences of insert calls, all automata", "why_tests_cant": "quantifies over all automata", "anchors": ["experiments/dawg.py:DAWG.count_nodes", "experiments/dawg.py:DAWG.count_edges", "experiments/dawg.py:DAWG.minimize_unchecked"]}
{"id": "C83", "title": "Misuse of the DAWG", "statement": "Position queries for non-empty words before finalize raise TypeError; get_index(-1) is the empty word (never stored), smaller positions give None on an empty graph and TypeError otherwise; insert after finalize is accepted and corrupts the graph: it can store a different word than the one given, hide the given word and lose a stored one.", "quantifier": "all sequences of calls for the first two; existence for the last", "why_tests_cant": "all graphs", "anchors": ["experiments/dawg.py:DAWG.index", "experiments/dawg.py:DAWGNode.__getitem__", "experiments/dawg.py:DAWG.insert"]}
{"id": "C84", "title": "V5b lookup returns the true top k and never raises", "statement": "ApproxWordListV5b.lookup with a non-empty string and positive top_k never raises; it returns distinct vocabulary words the query can find, with their exact scores, and their scores are the top_k best of all such words in descending order; a query that folds to nothing or contains a marker finds nothing. With normalize=True and long enough queries, a stored query comes first with score 1 and every other word scores less.", "quantifier": "all constructor arguments, all sequences of add_word, all queries, all monotone aggregates", "why_tests_cant": "pruning with bounds over an unbounded index", "anchors": ["experiments/gemini_optimized_v5.py:ApproxWordListV5b.lookup", "experiments/gemini_optimized_v5.py:ApproxWordListV5b.__lookup_similarity"]}
{"id": "C85", "title": "V5b agrees with V5", "statement": "Built with the same arguments and words, ApproxWordListV5b and ApproxWordListV5 hold the same index, and whenever V5.lookup(invert=True) does not raise its first top_k scores are the scores of V5b.lookup.", "quantifier": "all constructor arguments, all sequences of add_word, all queries", "why_tests_cant": "equivalence of two implementations", "anchors": ["experiments/gemini_optimized_v5.py:ApproxWordListV5b", "nmd/nmd_index.py:ApproxWordListV5"]}
{"id": "C86", "title": "V5b vocabulary, len and in", "statement": "After any add_word calls the vocabulary is strictly ascending and consists of the folded forms of the successfully added words; len is its length; in holds exactly for strings whose folded form is in it.", "quantifier": "all sequences of calls", "why_tests_cant": "unbounded sequences", "anchors": ["experiments/gemini_optimized_v5.py:ApproxWordListV5b.add_word", "experiments/gemini_optimized_v5.py:ApproxWordListV5b.__contains__"]}
{"id": "C87", "title": "V5b validation", "statement": "The constructor succeeds exactly for positive n or a non-empty iterable of positive sizes, boolean case_sensitive, and filter_n None or positive; add_word and lookup raise only ValueError, exactly for the documented arguments, and a failed add_word changes nothing.", "quantifier": "all arguments, all reachable states", "why_tests_cant": "all argument values", "anchors": ["experiments/gemini_optimized_v5.py:ApproxWordListV5b.__init__", "experiments/gemini_optimized_v5.py:ApproxWordListV5b.add_word", "experiments/gemini_optimized_v5.py:ApproxWordListV5b.lookup"]}
{"id": "C88", "title": "Tokenisation is lossless and positions are exact", "statement": "The tokens of unicode_tokenize(text, as_tokens=True), with or without merge_apostrophe_word, concatenate to the text; every token is non-empty and its text is the slice of the input at its start_pos; each token starts where the previous one ended.", "quantifier": "all texts, both values of merge_apostrophe_word, all Unicode category tables", "why_tests_cant": "all strings", "anchors": ["experiments/tokenizer.py:unicode_tokenize", "experiments/tokenizer.py:_unicode_tokenize_all_tokens", "experiments/tokenizer.py:_merge_apostrophes_into_words"]}
{"id": "C89", "title": "Tokens are maximal words and single separators", "statement": "Without merging, the WORD tokens are exactly the maximal runs of text characters and every other character is a token of its own, WHITESPACE if it is listed in UNICODE_SPACES and PUNCTUATION otherwise; this determines the token list uniquely, and tokenising can be done piecewise around any non-text character.", "quantifier": "all texts", "why_tests_cant": "all strings; uniqueness", "anchors": ["experiments/tokenizer.py:_unicode_tokenize_all_tokens"]}
{"id": "C90", "title": "The four tokeniser modes agree", "statement": "For either value of merge_apostrophe_word, the output with words_only is the WORD tokens of the output without it, and the output with as_tokens=False is the texts of the output with as_tokens=True, although different functions compute them; no mode raises.", "quantifier": "all texts, all flag combinations", "why_tests_cant": "equivalence of four implementations on all strings", "anchors": ["experiments/tokenizer.py:_unicode_tokenize_all_strings", "experiments/tokenizer.py:_unicode_tokenize_word_strings", "experiments/tokenizer.py:_unicode_tokenize_word_tokens", "experiments/tokenizer.py:unicode_tokenize"]}
{"id": "C91", "title": "Apostrophe merging", "statement": "Cut the token list into maximal runs of words and apostrophes. merge_apostrophe_word replaces a run by one WORD exactly when the run is word, apostrophe, word, and leaves every other token untouched; the assertions in the merging code never fail on tokeniser output.", "quantifier": "all texts", "why_tests_cant": "a state machine over unbounded inputs", "anchors": ["experiments/tokenizer.py:_merge_apostrophes_into_words"]}
{"id": "C92", "title": "Where sentences end", "statement": "Within a paragraph sentence_split_tokens cuts exactly after each whitespace token that follows a closing punctuation mark with only closing quotes or brackets in between; nothing is lost, no sentence is empty.", "quantifier": "all texts, all split_newline arguments, both values of merge_apostrophe_word", "why_tests_cant": "all strings", "anchors": ["experiments/tokenizer.py:sentence_split_tokens"]}
{"id": "C93", "title": "sentence_split loses only whitespace", "statement": "Every sentence is non-empty and neither starts nor ends with whitespace; with a boolean split_newline the sentences joined together and the text have the same non-whitespace characters in the same order; with a separator string the same holds for the text with the separators removed.", "quantifier": "all texts, all split_newline arguments", "why_tests_cant": "all strings", "anchors": ["experiments/tokenizer.py:sentence_split", "experiments/tokenizer.py:sentence_split_tokens"]}
{"id": "C94", "title": "Positions of sentence tokens", "statement": "The start_pos of a token of sentence_split_tokens is its position in the stripped paragraph; it is not, in general, its position in the text given to the function.", "quantifier": "all texts; a witness for the negative part", "why_tests_cant": "all strings", "anchors": ["experiments/tokenizer.py:sentence_split_tokens"]}
{"id": "C95", "title": "n-grams are the windows", "statement": "text_n_grams(text, n) for n >= 1 lists the substrings of length n in order of position; word_n_grams lists the windows of n consecutive words, of the whole text or of each sentence, in order, never spanning two sentences, and raises AssertionError exactly for n < 2.", "quantifier": "all texts, all integer n, all flags", "why_tests_cant": "all strings and sizes", "anchors": ["experiments/tokenizer.py:text_n_grams", "experiments/tokenizer.py:word_n_grams"]}
{"id": "C96", "title": "to_regex accepts exactly the stored keys", "statement": "Trie.to_regex never raises, whatever the keys and options (given a character tokenizer), and its last loop ends. Whenever the trie has a key and no key meets one of the pattern-rewriting defects of C100, the pattern is accepted by re.compile and re.fullmatch succeeds exactly on the texts that are a stored key, up to the options: whitespace for whitespace with fuzzy_spaces, any character but a newline for U+FFFD with fffd_any, word boundaries at both ends with boundary.", "quantifier": "all tries reached by any sequence of calls, all options, all texts, all character classes in which a space is whitespace and U+FFFD is not", "why_tests_cant": "all key sets and all texts; the pattern goes through five rewriting passes", "anchors": ["experiments/find_replace_trie.py:Trie.to_regex"]}
{"id": "C97", "title": "A match is the longest stored key", "statement": "For keys that part only with characters that cannot both match, re.match with the pattern of to_regex at any position of any text returns the longest stored key that starts there (up to the options), and None exactly when no stored key starts there.", "quantifier": "all tries reached by any sequence of calls, all options, all texts, all positions", "why_tests_cant": "the order of alternatives matters to a backtracking matcher; all key sets and texts", "anchors": ["experiments/find_replace_trie.py:Trie.to_regex"]}
{"id": "C98", "title": "re.finditer agrees with Trie.finditer", "statement": "For keys that no option rewrites, none of them empty, and without boundary, re.finditer with the pattern of to_regex yields the same spans as Trie.finditer on every text.", "quantifier": "all tries reached by any sequence of calls, all texts", "why_tests_cant": "equivalence of two matchers on all inputs", "anchors": ["experiments/find_replace_trie.py:Trie.to_regex", "experiments/find_replace_trie.py:Trie.finditer"]}
{"id": "C99", "title": "fuzzy_quotes has no effect", "statement": "to_regex returns the same pattern with fuzzy_quotes on and off: re.escape (Python 3.7 and later) leaves the quotation marks as they are, so the strings to be replaced never occur.", "quantifier": "all tries, all options", "why_tests_cant": "all key sets", "anchors": ["experiments/find_replace_trie.py:Trie.to_regex"]}
{"id": "C100", "title": "Where the pattern is wrong", "statement": "With the default options the pattern does not match what was stored in these cases: U+FFFD next to a sibling becomes a literal dot in a class; two keys that part with different whitespace give a class that also matches '+'; a space after the characters \\ and s in a key is lost; a trie without keys gives a pattern that matches the empty text.", "quantifier": "witnesses, for every character table in which they are what they should be", "why_tests_cant": "negative statements; they bound C96", "anchors": ["experiments/find_replace_trie.py:Trie.to_regex"]}
{"id": "C101", "title": "emd_1d_dp in floating point: exact laws", "statement": "With Python's floats, emd_1d_dp returns, emd_1d_dp(x, y) == emd_1d_dp(y, x) bit for bit, the result does not depend on the order of the points, and it is 0 exactly when both arguments hold the same points with the same multiplicities.", "quantifier": "all finite lists of points, every arithmetic that rounds the exact result of each operation (monotone, odd, relative error at most u, integers up to 2^53 exact); binary64 is one", "why_tests_cant": "rounding errors depend on the values; a law that holds for some samples can fail for others", "anchors": ["nmd/emd_1d.py:emd_1d_dp"]}
{"id": "C102", "title": "emd_1d_dp in floating point: bounds", "statement": "With Python's floats the result of emd_1d_dp is at least the difference of the lengths, at most their sum, and at most the larger length if all points are within 1 of each other, without any rounding allowance.", "quantifier": "all lists with at most 2^53 points, every rounding arithmetic as in C101", "why_tests_cant": "all lists, all rounding errors", "anchors": ["nmd/emd_1d.py:emd_1d_dp"]}
{"id": "C103", "title": "emd_1d_dp in floating point: relative error", "statement": "With L points in total, the computed emd_1d_dp lies between (1-u)^L and (1+u)^L times the least cost over all transport plans (u = 2^-53 for Python's floats).", "quantifier": "all lists of points, every rounding arithmetic as in C101", "why_tests_cant": "accumulated rounding error over unbounded loops", "anchors": ["nmd/emd_1d.py:emd_1d_dp"]}
{"id": "C104", "title": "ngram_movers_distance in floating point: exceptions, range, identity", "statement": "With Python's floats, ngram_movers_distance raises exactly the exceptions of the exact computation; the distance lies in [0, T] and the similarity is at most twice the smaller number of n-grams; normalised values lie in [0, 1]; a word has distance exactly 0 and normalised similarity exactly 1 to itself.", "quantifier": "all words (up to 2^53 n-grams together), all n >= 2 with n <= len + 3, every rounding arithmetic as in C101", "why_tests_cant": "a rounding error could push a value slightly below 0 or above 1 for some input", "anchors": ["nmd/nmd_core.py:ngram_movers_distance"]}
{"id": "C105", "title": "ngram_movers_distance in floating point: nothing in common", "statement": "With Python's floats, the similarity is exactly 0, and the normalised distance exactly 1, if and only if the words have no n-gram in common.", "quantifier": "all words with an n-gram (up to 2^53 n-grams together), every rounding arithmetic with T*u <= 1", "why_tests_cant": "all words", "anchors": ["nmd/nmd_core.py:ngram_movers_distance"]}
{"id": "C106", "title": "ngram_movers_distance in floating point: error bound", "statement": "With T n-grams in both words together, the computed distance and similarity differ from the exact values by at most 5*T^2*u, the normalised ones by at most 6*T*u.", "quantifier": "all words and n, T*u <= 1/2", "why_tests_cant": "accumulated rounding error over unbounded loops", "anchors": ["nmd/nmd_core.py:ngram_movers_distance", "nmd/emd_1d.py:emd_1d_dp"]}
{"id": "C107", "title": "ngram_movers_distance in floating point: zero only for equal words", "statement": "With Python's floats and at most 8192 n-grams in both words together, the computed distance (raw or normalised) is 0, and the normalised similarity is 1, if and only if the words are equal.", "quantifier": "all pairs of words with an n-gram and at most 8192 n-grams together, all n >= 2", "why_tests_cant": "all pairs of words; two different words could round to distance 0", "anchors": ["nmd/nmd_core.py:ngram_movers_distance"]}
{"id": "C108", "title": "ngram_movers_distance in floating point: not exactly symmetric", "statement": "With Python's floats ngram_movers_distance(a, b) can differ from ngram_movers_distance(b, a), because the terms are added in the order of the first word ('cbc' and 'bcbb' with n=2); the difference is at most 10*T^2*u, and the triangle inequality holds up to 15*T^2*u.", "quantifier": "a witness for the negative part; all words for the bounds", "why_tests_cant": "negative statement, and bounds over all words", "anchors": ["nmd/nmd_core.py:ngram_movers_distance"]}
{"id": "C109", "title": "WordSet in-place operators |=, -=, ^=", "statement": "ws |= words leaves the union of the normal forms, with earlier words keeping place and spelling; ws -= words keeps exactly the words whose normal form was not given; ws ^= S toggles each element, so it is the symmetric difference exactly when S holds no two spellings of one word (with two spellings the toggles cancel); with the set itself on the right |= changes nothing and -= and ^= empty it; an element that cannot be processed stops the operation with the earlier ones done.", "quantifier": "all reachable word sets, all lists of words, all normalisers", "why_tests_cant": "unbounded histories and operands; the duplicate-spelling case needs an operand tests rarely use", "anchors": ["nmd/nmd_word_set.py:WordSet", "nmd/nmd_word_set.py:WordSet.add", "nmd/nmd_word_set.py:WordSet.discard"]}
{"id": "C110", "title": "WordSet comparisons", "statement": "Between two word sets with the same normalisation, <=, <, >=, > and isdisjoint never raise and are inclusion, strict inclusion, their converses and disjointness of the sets of normal forms.", "quantifier": "all pairs of reachable word sets with the same normalisation", "why_tests_cant": "all pairs of histories", "anchors": ["nmd/nmd_word_set.py:WordSet", "nmd/nmd_word_set.py:WordSet.__contains__"]}
{"id": "C111", "title": "WordSet compared with a Python set", "statement": "For a Python set S of strings, ws <= S holds iff every stored spelling is in S, while ws >= S holds iff S is not larger and every word of S has a normal form in ws, and ws.isdisjoint(S) iff none has; so ws <= {'a'} is false and ws >= {'a'} true for the set of 'A'.", "quantifier": "all reachable word sets, all sets of words the normaliser accepts", "why_tests_cant": "all histories; the asymmetry between spelling and normal form is invisible on lower-case samples", "anchors": ["nmd/nmd_word_set.py:WordSet", "nmd/nmd_word_set.py:WordSet.__iter__", "nmd/nmd_word_set.py:WordSet.__contains__"]}
{"id": "C112", "title": "WordSet operators that build a set raise", "statement": "ws & x, ws | x, ws - x, ws ^ x and ws &= x raise TypeError for every x, and ws ^= x does for an iterable that is not a set; the word set is unchanged.", "quantifier": "all states, all operands", "why_tests_cant": "negative statement over all operands", "anchors": ["nmd/nmd_word_set.py:WordSet.__init__"]}
{"id": "C113", "title": "emd_1d_dp_cython is memory safe", "statement": "With bounds checking switched off, no call of emd_1d_dp_cython follows a null pointer, reads or writes outside a block it allocated, reads an uninitialised cell, uses freed memory or frees twice, whatever the arguments and whichever allocations fail; memory of the caller is not changed.", "quantifier": "all arguments, all initial heaps, all patterns of allocation failure", "why_tests_cant": "undefined behaviour can pass every test; allocation failures cannot be enumerated", "anchors": ["experiments/emd_1d_cython.pyx:emd_1d_dp_cython"]}
{"id": "C114", "title": "emd_1d_dp_cython frees what it allocates", "statement": "On every path (return, conversion error, failed allocation) every block allocated by the call has been freed, except when len(positions_y) raises: then the array made for positions_x leaks.", "quantifier": "all arguments, all initial heaps, all patterns of allocation failure", "why_tests_cant": "leaks are invisible to tests of results; all failure paths", "anchors": ["experiments/emd_1d_cython.pyx:emd_1d_dp_cython"]}
{"id": "C115", "title": "emd_1d_dp_cython agrees with emd_1d_dp", "statement": "With enough memory the result on two sequences of numbers is that of emd_1d_dp on the numbers converted to doubles, bit for bit on floats; only TypeError (an argument is not a sequence of numbers) and MemoryError (an allocation failed) are raised; where malloc(0) returns NULL an empty sequence raises MemoryError although emd_1d_dp returns a value.", "quantifier": "all sequences of finite numbers, all heaps, any rounding", "why_tests_cant": "all inputs of all lengths, incl. equality of rounded results", "anchors": ["experiments/emd_1d_cython.pyx:emd_1d_dp_cython"]}
{"id": "C116", "title": "emd_1d_dp_cython needs rows of the longer length", "statement": "The docstring promises O(min(N, M)) space, but where requests of more than max(N, M) cells are refused the call raises MemoryError, however short the other sequence is.", "quantifier": "all pairs of sequences of numbers, all heaps", "why_tests_cant": "space bound over all sizes", "anchors": ["experiments/emd_1d_cython.pyx:emd_1d_dp_cython"]}
{"id": "C117", "title": "process_file skips an existing output", "statement": "If the output exists and overwrite is false, process_file returns without reading, writing or raising anything.", "quantifier": "all file systems, tries and paths", "why_tests_cant": "all states of the file system", "anchors": ["experiments/find_replace_trie.py:Trie.process_file"]}
{"id": "C118", "title": "process_file writes the translation", "statement": "A call that returns has put into the output the leftmost-longest translation of the input text (line ends read as \\n), has left no temporary file and has changed no other file, also when input and output are the same; without failing system calls and with existing directory and input it does return (in less than a week).", "quantifier": "all tries, tokenizers, texts, file systems and paths; any pattern of failing calls", "why_tests_cant": "all texts and file systems", "anchors": ["experiments/find_replace_trie.py:Trie.process_file", "experiments/find_replace_trie.py:Trie._yield_tokens", "experiments/find_replace_trie.py:Trie._translate_tokens"]}
{"id": "C119", "title": "process_file is safe against crashes", "statement": "At every moment of a run, whichever system calls fail and wherever it is cut off, the output is unchanged, or complete, or missing with the complete translation in the temporary file; no other file ever differs and directories are only added on the way to the output.", "quantifier": "all tries, texts, file systems and paths; all patterns of failing calls; all moments", "why_tests_cant": "crash points and failures cannot be enumerated by tests", "anchors": ["experiments/find_replace_trie.py:Trie.process_file"]}
{"id": "C120", "title": "process_file after an exception", "statement": "A call that raises leaves the output unchanged, unless the renaming failed (then the complete translation is in the temporary file) or the work took a week (then the new output is in place); a partly written temporary file stays behind only if its removal failed.", "quantifier": "all tries, texts, file systems and paths; all patterns of failing calls", "why_tests_cant": "failure injection at every call", "anchors": ["experiments/find_replace_trie.py:Trie.process_file"]}
{"id": "C121", "title": "process_file: where it does not do what one expects", "statement": "An output path without a slash always raises FileNotFoundError; encoding=None works only for an empty input; an input named output + '.partial' is destroyed and the output left empty; a trie without keys still rewrites \\r\\n and \\r; after a week of work the call raises; a failing open of the temporary file is reported as FileNotFoundError.", "quantifier": "all file systems and paths meeting the description", "why_tests_cant": "negative statements over all runs", "anchors": ["experiments/find_replace_trie.py:Trie.process_file"]}
{"id": "C122", "title": "format_bytes", "statement": "format_bytes(n) for |n| >= 2 never raises and shows the largest of the nine binary units not larger than |n| and a decimal number within 1/200 of |n| in that unit; since rounding comes last, 1048575 is shown as 1024.00 KiB.", "quantifier": "all integers", "why_tests_cant": "all integers", "anchors": ["experiments/find_replace_trie.py:format_bytes"]}
{"id": "C123", "title": "format_seconds", "statement": "format_seconds(x) raises IndexError exactly for |x| >= 604800 (a week); from one second on it shows the largest unit not larger than |x| with a number within 1/200 of the unit, singular exactly when |x| is one unit; below one second the number shown is within five percent.", "quantifier": "all numbers, exact arithmetic", "why_tests_cant": "all numbers; the week boundary is never reached in tests", "anchors": ["experiments/find_replace_trie.py:format_seconds"]}
{"id": "C124", "title": "Floats change nothing but the stored positions", "statement": "After any calls, a word list that computes with floats equals the one that computes exactly except for the stored n-gram positions, which are the exact positions rounded; every add_word returns or raises the same.", "quantifier": "all constructor arguments and call sequences; every correct rounding", "why_tests_cant": "all call sequences", "anchors": ["nmd/nmd_index.py:ApproxWordListV6.add_word", "nmd/nmd_index.py:ApproxWordListV6.lookup"]}
{"id": "C125", "title": "Scores computed with floats", "statement": "The score of a stored word for one n >= 2 is bit for bit what ngram_movers_distance(query, word, n, invert=True, normalize) returns (and so is the score of a list for a single n); normalised scores and their mean are between 0 and 1.", "quantifier": "all words and n, every correct rounding", "why_tests_cant": "bit-for-bit agreement for all words", "anchors": ["nmd/nmd_index.py:ApproxWordListV6.add_word", "nmd/nmd_index.py:ApproxWordListV6.lookup"]}
{"id": "C126", "title": "Unnormalised lookups with floats return the best words", "statement": "lookup(w, k, normalize=False) computed with floats returns the k best eligible words by the computed scores, in order, and leaves out none that is better; with a query that has exactly one n-gram for some n and an eligible word it raises ZeroDivisionError; without eligible words the result is empty.", "quantifier": "all reachable lists, all queries, all monotone aggregates, every correct rounding, words up to 2^53 characters", "why_tests_cant": "all lists and queries; pruning on rounded bounds could lose a word only in rare cases", "anchors": ["nmd/nmd_index.py:ApproxWordListV6.add_word", "nmd/nmd_index.py:ApproxWordListV6.lookup"]}
{"id": "C127", "title": "Normalised lookups with floats return the best words", "statement": "If all n are at least 2 (as by default), a lookup normalised and computed in double precision returns the k best eligible words by the computed scores, in order, and leaves out none that is better, for words of together at most 8190 characters: pruning on rounded bounds loses nothing.", "quantifier": "all reachable lists, all queries, roundings with unit roundoff at most 2^-53", "why_tests_cant": "all lists and queries; a loss by rounding would be rare and unnoticed", "anchors": ["nmd/nmd_index.py:ApproxWordListV6.add_word", "nmd/nmd_index.py:ApproxWordListV6.lookup"]}
{"id": "C128", "title": "Normalised lookups with floats for any n", "statement": "For every list of n, a normalised lookup with floats returns as many words as possible, sorted, and a word left out has a computed score at most a factor 1/(1 - (4N + 2|q| + 11)u) above each one returned (N different n, query q, unit roundoff u).", "quantifier": "all reachable lists and queries, every correct rounding", "why_tests_cant": "all lists and queries", "anchors": ["nmd/nmd_index.py:ApproxWordListV6.add_word", "nmd/nmd_index.py:ApproxWordListV6.lookup"]}
{"id": "C129", "title": "Exact matches with floats", "statement": "Looking up a stored word (normalised, every n at least 2 and below its length + 2) returns it first with the scores (1.0, 1.0), and no other word gets the score 1.0, in double precision for words of together at most 8190 characters.", "quantifier": "all reachable lists and stored words", "why_tests_cant": "all lists; a score rounded up to 1.0 would be rare", "anchors": ["nmd/nmd_index.py:ApproxWordListV6.add_word", "nmd/nmd_index.py:ApproxWordListV6.lookup"]}
{"id": "C130", "title": "Error of the computed scores", "statement": "The normalised score of a lookup computed with floats differs from the exact one by at most (4T + 2N + 3)u, with T >= |q| + |w| + 2, N different n and unit roundoff u.", "quantifier": "all words and lists of n", "why_tests_cant": "error bounds for all inputs", "anchors": ["nmd/nmd_index.py:ApproxWordListV6.add_word", "nmd/nmd_index.py:ApproxWordListV6.lookup"]}
{"id": "C131", "title": "In a word set, rounding affects nothing but scores", "statement": "Along every sequence of calls, a WordSet that computes with floats behaves like one that computes exactly: same exceptions, membership, length, iteration and popped words, and equally many words from find_similar and suggest; when k is at least len(ws), the words found are the same, in possibly another order.", "quantifier": "all constructor arguments and call sequences, every correct rounding", "why_tests_cant": "all call sequences", "anchors": ["nmd/nmd_word_set.py:WordSet.find_similar", "nmd/nmd_word_set.py:WordSet._compute_word_info", "nmd/nmd_word_set.py:WordSet.add"]}
{"id": "C132", "title": "find_similar with floats is the ranking by computed scores", "statement": "find_similar with floats returns the unique list of the k candidates with the highest computed scores (ties by insertion), in original spelling; scores are in [0, 1], positive if there is a filter, and clamping them to [0, 1] never changes a value (for up to 2^53 n-grams).", "quantifier": "all reachable sets, queries and k, every correct rounding", "why_tests_cant": "that rounding never drives a score out of [0, 1] cannot be sampled", "anchors": ["nmd/nmd_word_set.py:WordSet.find_similar", "nmd/nmd_word_set.py:WordSet._compute_word_info", "nmd/nmd_word_set.py:WordSet.add"]}
{"id": "C133", "title": "Error of the scores of find_similar", "statement": "Every score returned by find_similar differs from the true score by at most 5·T·u, with T the number of n-grams of query and word and u the unit roundoff.", "quantifier": "all reachable sets and queries, every correct rounding", "why_tests_cant": "error bounds for all inputs", "anchors": ["nmd/nmd_word_set.py:WordSet.find_similar", "nmd/nmd_word_set.py:WordSet._compute_word_info", "nmd/nmd_word_set.py:WordSet.add"]}
{"id": "C134", "title": "Exact matches in a word set with floats", "statement": "If the query is a member (and long enough), the first score returned is exactly 1.0; in double precision and with at most 8192 n-grams a score is 1.0 only for the query itself, which is returned first, and all other scores are below 1.0.", "quantifier": "all reachable sets and queries", "why_tests_cant": "a score rounded up to 1.0 would be rare", "anchors": ["nmd/nmd_word_set.py:WordSet.find_similar", "nmd/nmd_word_set.py:WordSet._compute_word_info", "nmd/nmd_word_set.py:WordSet.add"]}
{"id": "C135", "title": "find_similar with floats is best up to rounding", "statement": "No candidate left out has a true score more than 10·T·u above that of a returned word, and the order of the returned words is right up to 10·T·u; if the true scores of all candidates are further apart than that, suggest returns the same words in the same order as exact arithmetic.", "quantifier": "all reachable sets and queries, every correct rounding", "why_tests_cant": "all sets and queries", "anchors": ["nmd/nmd_word_set.py:WordSet.find_similar", "nmd/nmd_word_set.py:WordSet._compute_word_info", "nmd/nmd_word_set.py:WordSet.add"]}
{"id": "C136", "title": "Symmetry of the scores of a word set with floats", "statement": "Exchanging query and word does not change the computed score if the two words have different numbers of different n-grams; otherwise it can: 'baaba' looked up in {'babaa'} scores differently from 'babaa' looked up in {'baaba'} in double precision.", "quantifier": "all words and sizes, every correct rounding; a witness for the failure", "why_tests_cant": "all words; the failure is in the last bit", "anchors": ["nmd/nmd_word_set.py:WordSet.find_similar", "nmd/nmd_word_set.py:WordSet._compute_word_info", "nmd/nmd_word_set.py:WordSet.add"]}
{"id": "C137", "title": "Rounding changes neither exceptions nor ranges of bag distances", "statement": "With floats, bow_ngram_movers_distance raises exactly the exceptions it would raise in exact arithmetic; the distance stays between the difference and the maximum of the bag sizes, the similarity between 0 and the smaller size, normalised scores in [0, 1], whatever complete matching the assignment solver returns.", "quantifier": "all arguments (exceptions); all bags of up to 2^53 words of up to 2^51 characters, every correct rounding, every solver returning complete matchings", "why_tests_cant": "that rounding never leaves the range cannot be sampled", "anchors": ["nmd/nmd_bow.py:bow_ngram_movers_distance"]}
{"id": "C138", "title": "Zero bag distance with floats", "statement": "In double precision a computed bag distance of 0.0 means the bags hold the same words with the same multiplicities; bags with the same words in any order get exactly 0.0, similarity len, and normalised exactly 0.0 and 1.0 (words with an n-gram and at most 4096 n-grams).", "quantifier": "all bags of such words; first part every solver returning complete matchings, second part every optimal solver", "why_tests_cant": "all bags and solvers", "anchors": ["nmd/nmd_bow.py:bow_ngram_movers_distance"]}
{"id": "C139", "title": "Error of bag distances", "statement": "A computed bag score differs from the exact one by at most ε + N·(6T + M)·u (N, M the smaller and larger bag size, T a bound on the n-grams of two words, u the unit roundoff, ε how far the solver is from the least total of the computed costs), normalised by at most ε/M + (6T + M + 1)·u; distance and similarity add up to M up to 2·N·M·u.", "quantifier": "all bags, flags and solvers within ε of the optimum, every correct rounding", "why_tests_cant": "error bounds for all inputs", "anchors": ["nmd/nmd_bow.py:bow_ngram_movers_distance"]}
{"id": "C140", "title": "Single words and order in bag distances with floats", "statement": "For one-word bags the computed bag distance is exactly the computed normalised word distance. Reordering or exchanging the bags or changing the solver moves the computed score by at most twice the error bound, but it can move it: reordering three words changes the last bit in double precision.", "quantifier": "all words and bags, every correct rounding; a witness for the failure of exact invariance", "why_tests_cant": "all orders; the failure is in the last bit", "anchors": ["nmd/nmd_bow.py:bow_ngram_movers_distance"]}
{"id": "C141", "title": "Looking up in the original word graph", "statement": "Whatever calls of Dawg.insert were made (out-of-order calls raise and change nothing), after finish() every word of an accepted call is looked up with exactly its own data and every other word gives None; a call is rejected exactly when its word is not greater than the last accepted one.", "quantifier": "all sequences of calls, all words, all hash functions of strings (collisions included), any sufficient recursion limit", "why_tests_cant": "all words and insertion sequences; hash functions vary from run to run", "anchors": ["experiments/dawg-orig.py:Dawg", "experiments/dawg-orig.py:DawgNode"]}
{"id": "C142", "title": "The original word graph is minimal", "statement": "nodeCount and edgeCount are those of dawg.py for the same calls; no deterministic automaton accepting exactly the stored words has fewer states. The nodes used as dictionary keys are never changed afterwards in a way that changes their hash, and no two keys are equal. display() ends and prints every node exactly once, root first.", "quantifier": "all sequences of calls, all automata, all hash functions", "why_tests_cant": "minimality compares with all automata; stability of mutable keys concerns all reachable states", "anchors": ["experiments/dawg-orig.py:Dawg", "experiments/dawg-orig.py:DawgNode"]}
{"id": "C143", "title": "Misuse of the original word graph goes unnoticed", "statement": "Before finish(), lookup of a stored word returns without error the data at the position given by the number of stored proper prefixes of the word, in general data of another word; for two words with different first letters the second always gets the data of the first. After finish() further insertions are accepted, but counts stay stale even after another finish(), and words are looked up with wrong data.", "quantifier": "all sequences of calls (first part); all pairs of words with different first letters; a witness", "why_tests_cant": "which wrong answer comes out is a statement about all states", "anchors": ["experiments/dawg-orig.py:Dawg", "experiments/dawg-orig.py:DawgNode"]}
{"id": "C144", "title": "Texts of nodes identify nodes", "statement": "str of a DAWGNode (dawg.py), used as dictionary key, is the same for two nodes exactly when they agree in the terminal flag and in all edges, whatever the labels (quotes, commas, digits, escapes) and whatever CPython considers printable; str of a DawgNode (dawg-orig.py) is the same exactly when flag and edges in order of insertion agree.", "quantifier": "all pairs of nodes, all labels of one character, all tables of printable characters", "why_tests_cant": "injectivity over all labels and numbers", "anchors": ["experiments/dawg.py:DAWGNode.__str__", "experiments/dawg-orig.py:DawgNode.__str__"]}
{"id": "C145", "title": "deep_sizeof counts every object once", "statement": "Whenever deep_sizeof returns, the result is the sum of the sizes of all objects reached through mappings, elements, __dict__, slots and attributes, each counted once, shared and cyclic references included. If finitely many objects can be reached it ends; it raises AttributeError exactly if an object looked into lists an attribute that cannot be read (such as an unset slot).", "quantifier": "all finite graphs of persistent objects, all orders of references", "why_tests_cant": "all object graphs, cycles and sharing", "anchors": ["experiments/sizeof.py:deep_sizeof"]}
{"id": "C146", "title": "deep_sizeof is monotone, order independent and not additive", "statement": "The result depends only on the set of objects reached and their sizes; an object reached from another is not larger; the result is at most the object's own size plus the results for everything it refers to.", "quantifier": "all object graphs", "why_tests_cant": "relations between calls on all object graphs", "anchors": ["experiments/sizeof.py:deep_sizeof"]}
{"id": "C147", "title": "emd_1d_slow in floating point arithmetic", "statement": "On points at most 1 apart emd_1d_slow returns; with u the unit roundoff and k = min(len x, len y)+2 the result lies between (1-u)^k and (1+u)^k times the least cost of a transport plan, between |len x - len y| and max(len x, len y) exactly, and is 0 exactly when both lists hold the same points.", "quantifier": "all lists of points with distances at most 1, every rounding arithmetic (binary64 in particular)", "why_tests_cant": "error bounds for all lists of any length", "anchors": ["nmd/emd_1d.py:emd_1d_slow"]}
{"id": "C148", "title": "emd_1d_hybrid in floating point arithmetic", "statement": "On points at most 1 apart emd_1d_hybrid returns, also when the rounded comparisons of the greedy matching come out differently from exact ones; with L points in total the result differs from the least cost e by at most 2(2L+5)u(e+1), lies between |len x - len y| and max(len x, len y) exactly, and is 0 when both lists hold the same points.", "quantifier": "all lists of points with distances at most 1, every rounding arithmetic with u <= 1/2", "why_tests_cant": "greedy decisions are taken on rounded differences; all near-ties", "anchors": ["nmd/emd_1d.py:emd_1d_hybrid"]}
{"id": "C149", "title": "emd_1d_old in floating point arithmetic", "statement": "The same for emd_1d_old, with error at most 2(2L+5)u(e + min(len x, len y)).", "quantifier": "all lists of points with distances at most 1, fewer than 2^53 points, every rounding arithmetic with u <= 1/2", "why_tests_cant": "greedy decisions are taken on rounded differences; all near-ties", "anchors": ["nmd/emd_1d.py:emd_1d_old"]}
{"id": "C150", "title": "Symmetry and zero of the variants in floating point arithmetic", "statement": "emd_1d_slow, emd_1d_hybrid and emd_1d_old are bit for bit symmetric and independent of the order of the points, whatever the points. But emd_1d_hybrid and emd_1d_old can return 0 for different points, where emd_1d_dp and emd_1d_slow do not.", "quantifier": "all lists of points, every rounding arithmetic; a witness", "why_tests_cant": "exact equality of floats for all inputs", "anchors": ["nmd/emd_1d.py:emd_1d_slow", "nmd/emd_1d.py:emd_1d_hybrid", "nmd/emd_1d.py:emd_1d_old"]}
{"id": "C151", "title": "The implementations agree within the tolerance of the tests", "statement": "On positions in [0, 1], at most 1000 in total, the binary64 results (before or from Python 3.12) of emd_1d_slow, emd_1d_dp, emd_1d_hybrid and emd_1d_old differ pairwise by less than 1e-9. So check_correct_emd_1d and check_emd_implementations with their default tolerance never raise on such positions and return the result of emd_1d_old; check_correct_emd_1d raises AssertionError whenever some position is outside [0, 1].", "quantifier": "all lists of at most 1000 positions in [0, 1]", "why_tests_cant": "the tests try some lists of at most 18 points", "anchors": ["nmd/emd_1d.py:emd_1d_slow", "nmd/emd_1d.py:emd_1d_dp", "nmd/emd_1d.py:emd_1d_hybrid", "nmd/emd_1d.py:emd_1d_old", "experiments/correctness-test.py:check_correct_emd_1d", "tests/test_emd_correctness.py:check_emd_implementations"]}
{"id": "C152", "title": "Trie.fromkeys stores exactly the given keys", "statement": "Trie.fromkeys(keys, default, case_sensitive, sort) contains a key exactly when it is one of the given keys (up to the case of each token if case_sensitive=False), every stored key has the default as value, other keys raise KeyError. len is the number of different keys; if one of them is empty len raises AssertionError. With sort=True items() comes in lexicographic order of the tokens under the order of sort_keys.", "quantifier": "all lists of keys, defaults and options, every tokenizer and lower-casing function", "why_tests_cant": "unbounded key lists with repetitions and keys equal up to case", "anchors": ["experiments/find_replace_trie.py:Trie.fromkeys", "experiments/find_replace_trie.py:Trie.__init__", "experiments/find_replace_trie.py:Trie.update", "experiments/find_replace_trie.py:Trie.sort_keys"]}
{"id": "C153", "title": "Lower-casing tries", "statement": "With lowercase=True every token of the output of translate is lower-case, in the replaced and in the untouched parts; finditer, search, findall_longest, translate, [] and in give equal answers for arguments that are equal up to case; finditer answers as a case-sensitive trie with lower-cased keys would on the lower-cased text.", "quantifier": "all tries, texts and idempotent lower-casing functions on tokens", "why_tests_cant": "quantifies over all texts and tries", "anchors": ["experiments/find_replace_trie.py:Trie.__init__", "experiments/find_replace_trie.py:Trie.translate", "experiments/find_replace_trie.py:Trie.finditer", "experiments/find_replace_trie.py:Trie.search"]}
{"id": "C154", "title": "Match objects are faithful and true", "statement": "For every object m yielded by finditer (overlapping or not) or returned by search: m.span() == (m.start(), m.end()), start < end <= number of tokens, len(m) == end - start, m.group() is the detokenized slice of the tokens and a stored key, other group numbers raise IndexError, and bool(m) is True, so `if trie.search(text)` holds exactly when a stored non-empty key occurs. With the default tokenizer m.group() is text[m.start():m.end()] (lower-cased for lower-casing tries).", "quantifier": "all tries, texts, tokenizers", "why_tests_cant": "quantifies over all tries and texts", "anchors": ["experiments/find_replace_trie.py:Match", "experiments/find_replace_trie.py:Trie.finditer", "experiments/find_replace_trie.py:Trie.search"]}
{"id": "C155", "title": "Trie.nbytes counts every object once", "statement": "nbytes is the sum of sys.getsizeof over the objects that make up the trie (the trie, its length, tokenizer and detokenizer, nodes, values, key tokens), each counted once however often it is shared, and does not depend on the order of the keys. If tokenizer and detokenizer are one object nbytes raises AssertionError.", "quantifier": "all tries with arbitrary sharing of objects", "why_tests_cant": "sharing patterns are unbounded", "anchors": ["experiments/find_replace_trie.py:Trie.nbytes"]}
{"id": "C156", "title": "to_regex(strings) is bound to lower case", "statement": "The pattern of the function to_regex(strings, case_sensitive, ...) fully matches exactly the texts that are one of the strings, lower-cased unless case_sensitive=True, up to the other options. By default (case_sensitive=False) it therefore matches no text with a character that is not lower-case, not even a given string.", "quantifier": "all lists of strings meeting the conditions of C96 and all options", "why_tests_cant": "language equality over all texts", "anchors": ["experiments/find_replace_trie.py:to_regex", "experiments/find_replace_trie.py:Trie.fromkeys", "experiments/find_replace_trie.py:Trie.to_regex"]}
{"id": "C157", "title": "Results in Python before and from 3.12", "statement": "CPython 3.12 changed sum() of floats to compensated summation. A WordList with at most two sizes n (the default is (2, 4)) and dim=1 returns bit for bit the same from every add_word and lookup in both versions; with three sizes a score may differ in the last bit, and the scores of both versions are within 4(m+1) 2^-53 of each other for m sizes. ngram_movers_distance and emd_1d_dp never differ; emd_1d_slow, emd_1d_hybrid and emd_1d_old agree if the shorter list has at most two points, and may differ with three.", "quantifier": "all reachable lists, all arguments, all lists of points", "why_tests_cant": "a test runs under one version of Python and on finitely many words", "anchors": ["nmd/nmd_index.py:mean", "nmd/nmd_index.py:ApproxWordListV6.lookup", "nmd/emd_1d.py:emd_1d_slow", "nmd/emd_1d.py:emd_1d_hybrid", "nmd/emd_1d.py:emd_1d_old"]}
{"id": "C158", "title": "Means computed with the compensated sum", "statement": "From Python 3.12 on, the sum of up to 2^20 non-negative floats has a relative error of at most 2^-53 + 2^-63 and mean(vec, 1) one of at most 2.01 * 2^-53, however long the vector.", "quantifier": "all vectors of at most 2^20 non-negative floats", "why_tests_cant": "rounding errors of all vectors", "anchors": ["nmd/nmd_index.py:mean"]}
{"id": "C159", "title": "find_similar while another thread adds words", "statement": "Several threads use one WordSet, none removes words, and no two calls of add overlap. A find_similar (with a filter) returns exactly what it returns on a set that nobody else uses, holding the words present at first, every word whose add had returned before find_similar began, and some of the words whose add began before it returned; in particular it raises nothing it would not raise alone and never returns a half-added word. Without a filter it may raise RuntimeError instead.", "quantifier": "all reachable sets, all threads and arguments, all interleavings of their steps, all enumeration orders of sets of n-grams", "why_tests_cant": "the result depends on where threads are switched; a test runs through few of the interleavings", "anchors": ["nmd/nmd_word_set.py:WordSet.add", "nmd/nmd_word_set.py:WordSet.find_similar"]}
{"id": "C160", "title": "Words added by several threads, one at a time", "statement": "If no two calls of add overlap and nothing is removed, every add returns or raises what it would if the adds had been made in the order of their beginnings by one thread, and when none is running, every further sequence of operations gives the same outputs as on the set obtained that way, whatever find_similar calls were running meanwhile.", "quantifier": "all reachable sets, all interleavings, all further operations", "why_tests_cant": "interleavings", "anchors": ["nmd/nmd_word_set.py:WordSet.add", "nmd/nmd_word_set.py:WordSet.find_similar"]}
{"id": "C161", "title": "Unsynchronised writers", "statement": "The class takes no locks: if two threads add different new words to any reachable set, there is an interleaving in which both calls return normally, the length grows by two, and iteration yields only one of the words. If one thread discards a word that shares an n-gram of the filter size with the query of another thread's find_similar, there is an interleaving in which the latter raises KeyError; without a filter, a concurrent add of a new word can make it raise RuntimeError.", "quantifier": "all reachable sets and words (existence of an interleaving for each)", "why_tests_cant": "races show up rarely in tests", "anchors": ["nmd/nmd_word_set.py:WordSet.add", "nmd/nmd_word_set.py:WordSet.discard", "nmd/nmd_word_set.py:WordSet.find_similar"]}
{"id": "C162", "title": "find_similar is not a snapshot", "statement": "Even if words are added one at a time, a concurrent find_similar may return a word that was added later and miss a similar word added completely before it, an answer that no moment's contents give.", "quantifier": "existence", "why_tests_cant": "races show up rarely in tests", "anchors": ["nmd/nmd_word_set.py:WordSet.find_similar"]}
{"id": "C163", "title": "normalize_nfd_strip_marks keeps the letters", "statement": "normalize_nfd_strip_marks returns the characters of the canonical decompositions that are not marks, in order. It works character by character (the result for a concatenation is the concatenation of the results), its result contains neither marks nor characters that decompose, it is idempotent, and inserting marks anywhere, in any order, does not change the result.", "quantifier": "all texts, all Unicode tables in which decompositions are complete and characters with a combining class are marks", "why_tests_cant": "there are infinitely many texts and the tables change with every version of Python", "anchors": ["nmd/nmd_word_set.py:normalize_nfd_strip_marks"]}
{"id": "C164", "title": "Word sets that ignore accents", "statement": "In a WordSet with normalize_nfd_strip_marks, words with the same letters (after case folding, if the set is not case-sensitive) are interchangeable: in, discard, remove, find_similar and suggest give the same for both, adding one makes the other a member, and find_similar lists the member first with similarity 1. A word is accepted if and only if it has a letter. Because folding comes first, a mark whose case folding is a letter (U+0345) is not ignored in a case-insensitive set.", "quantifier": "all reachable sets, all words, all tables", "why_tests_cant": "there are infinitely many spellings and histories", "anchors": ["nmd/nmd_word_set.py:normalize_nfd_strip_marks", "nmd/nmd_word_set.py:WordSet._normalize_word", "nmd/nmd_word_set.py:WordSet.add", "nmd/nmd_word_set.py:WordSet.find_similar"]}
{"id": "C165", "title": "Range of exponents: emd_1d", "statement": "The result of an operation is the nearest finite binary64 number, and operations overflow exactly from 2^1024 - 2^970 on. For finite floats of magnitude at most 2^970 (subnormal numbers included) no operation of emd_1d overflows and none is affected by underflow: the result is that of 53-bit arithmetic without bounds on the exponent, to which the error bounds apply.", "quantifier": "all lists of floats of that magnitude, of at most 2^53 elements in total", "why_tests_cant": "the range of exponents has 2000 binades and underflow happens for special combinations only", "anchors": ["nmd/emd_1d.py:emd_1d_dp"]}
{"id": "C166", "title": "Range of exponents: distances", "statement": "For words of at most 2^48 characters no operation of ngram_movers_distance or bow_ngram_movers_distance overflows or is affected by underflow: result and exceptions are those of the arithmetic without bounds on the exponent.", "quantifier": "all words, n, flags and bags within the bounds, both versions of sum", "why_tests_cant": "there are infinitely many words; rounding effects show for special combinations only", "anchors": ["nmd/nmd_core.py:ngram_movers_distance", "nmd/nmd_bow.py:bow_ngram_movers_distance"]}
{"id": "C167", "title": "Range of exponents: WordList", "statement": "After any calls, the positions stored in a WordList and the results of lookups are those of the arithmetic without bounds on the exponent, if words have at most 2^48 characters and there are at most 2^20 sizes.", "quantifier": "all constructor arguments, sequences of calls and queries within the bounds, both versions of sum", "why_tests_cant": "there are infinitely many histories", "anchors": ["nmd/nmd_index.py:WordList.add_word", "nmd/nmd_index.py:WordList.lookup"]}
{"id": "C168", "title": "Range of exponents: WordSet", "statement": "Whatever calls are made on a WordSet, all observations are those of the arithmetic without bounds on the exponent, if normalised words have at most 2^30 characters and there are at most 2^20 sizes.", "quantifier": "all constructor arguments and sequences of calls within the bounds", "why_tests_cant": "there are infinitely many histories", "anchors": ["nmd/nmd_word_set.py:WordSet.find_similar", "nmd/nmd_word_set.py:WordSet.add"]}
{"id": "C169", "title": "Editing a block of a word", "statement": "Replacing a contiguous block of a word by another block (also an empty one), at any place, changes it by an ngram_movers_distance of at most 2 * (length of the longer block + n - 1), however long the rest of the word is.", "quantifier": "all words, blocks, places and n >= 2", "why_tests_cant": "there are infinitely many words and places; the relative positions of all other n-grams shift", "anchors": ["nmd/nmd_core.py:ngram_movers_distance"]}
{"id": "C170", "title": "Distance and number of edits", "statement": "ngram_movers_distance is at most 2 * n times the Levenshtein distance, and at most 2 * (n + 1) times damerau_levenshtein_distance; the normalised similarity of words k edits apart is at least 1 - 2 * n * k / (number of n-grams of both). It is at least the difference of the lengths.", "quantifier": "all pairs of words and n >= 2", "why_tests_cant": "relates two different distances over all pairs of words", "anchors": ["nmd/nmd_core.py:ngram_movers_distance", "experiments/automata.py:levenshtein", "experiments/edit_distance.py:damerau_levenshtein_distance"]}
{"id": "C171", "title": "A word set finds misspelt words", "statement": "A word stored in a WordSet that is e edits (or transpositions) away from the query is among the results of find_similar, with a score bounded below in terms of e, unless top_k words with at least its score are; this needs a minimal length that depends on the filter size only. For three-letter words and the default sizes it fails with one wrong letter.", "quantifier": "all histories of the set, stored words, queries, numbers of edits and top_k", "why_tests_cant": "the filter may drop any word that shares no filter n-gram; no finite set of misspellings covers all words", "anchors": ["nmd/nmd_word_set.py:WordSet.find_similar"]}
{"id": "C172", "title": "A word list finds misspelt words", "statement": "The same for WordList.lookup: a stored word e edits away from the query is eligible if both are long enough for the filter and for one of the sizes; it is returned unless top_k words scoring at least as well are, and with normalize=True its score is at least the mean of the bounds for the sizes.", "quantifier": "all histories of the list, stored words, queries, numbers of edits, top_k and means", "why_tests_cant": "as C171, and pruning might drop the word", "anchors": ["nmd/nmd_index.py:WordList.lookup"]}
{"id": "C173", "title": "Only equality of characters matters", "statement": "Renaming the characters of both words by a map that keeps different characters different does not change ngram_movers_distance, for any n and flags, exceptions included.", "quantifier": "all words, injective maps, n and flags", "why_tests_cant": "there are infinitely many renamings", "anchors": ["nmd/nmd_core.py:ngram_movers_distance"]}
{"id": "C174", "title": "Reading words backwards", "statement": "Reversing both words does not change ngram_movers_distance, for any n and flags, exceptions included.", "quantifier": "all words, n and flags", "why_tests_cant": "a property of all pairs of words that depends on the placement of the markers and the normalisation of positions", "anchors": ["nmd/nmd_core.py:ngram_movers_distance"]}
{"id": "C175", "title": "Bag-of-words distance of a misspelt text", "statement": "If every word of a text is changed by some number of edits, bow_ngram_movers_distance between the two texts is at most the sum over the words of 2 * n * edits / (n-grams of the word before and after); with invert=True the result is the number of words minus the distance.", "quantifier": "all texts, misspellings and n >= 2, and all optimal assignment solvers", "why_tests_cant": "the solver may pair words differently; no finite set of texts covers all misspellings", "anchors": ["nmd/nmd_bow.py:bow_ngram_movers_distance"]}
{"id": "C176", "title": "Bag-of-words distance under one more or one other word", "statement": "Adding a word to a bag moves bow_ngram_movers_distance by at most 1: never down if the bag was at least as large as the other one, never up if it was smaller. Replacing a word moves it by at most 1.", "quantifier": "all bags, words and n >= 2, and all optimal assignment solvers", "why_tests_cant": "one word may change the whole optimal assignment", "anchors": ["nmd/nmd_bow.py:bow_ngram_movers_distance"]}
{"id": "C177", "title": "Bag-of-words distance of renamed and reversed words", "statement": "Renaming the characters of all words by a map that keeps different characters different, or reversing every word, does not change bow_ngram_movers_distance, for any n and flags; reversal does not change exceptions either.", "quantifier": "all bags, injective maps, n, flags and solvers", "why_tests_cant": "there are infinitely many renamings and bags", "anchors": ["nmd/nmd_bow.py:bow_ngram_movers_distance"]}
{"id": "C178", "title": "Typos are found with floats too", "statement": "The guarantees about typos hold for the float computation. A stored word a few edits away from the query (for word sets also with transpositions) is found under the same length condition as in exact arithmetic, with a computed score of at least the exact lower bound minus a stated rounding error, unless top_k words with at least that score are returned. For word lists: normalised lookup, sizes of at least 2, query and words together at most 8190 characters. The computed bag-of-words distance of a misspelt text exceeds the exact bound at most by the rounding error.", "quantifier": "all reachable states, words, edits and roundings", "why_tests_cant": "rounding errors depend on the words; no finite set of words covers them", "anchors": ["nmd/nmd_index.py:WordList.lookup", "nmd/nmd_word_set.py:WordSet.find_similar", "nmd/nmd_bow.py:bow_ngram_movers_distance"]}
{"id": "C179", "title": "Renaming and reversal with floats", "statement": "Renaming the characters of all words gives bit-identical floats from ngram_movers_distance and bow_ngram_movers_distance, whatever the rounding. Reversing both words may change the last bits (it does for 'aaa' and 'aaba'), but by no more than a stated multiple of the machine precision, and raises the same exceptions.", "quantifier": "all words, injective maps, n and flags; all roundings", "why_tests_cant": "bitwise equality and error bounds for all words cannot be sampled", "anchors": ["nmd/nmd_core.py:ngram_movers_distance", "nmd/nmd_bow.py:bow_ngram_movers_distance"]}
{"id": "C180", "title": "Word sets of renamed and reversed words", "statement": "The same sequence of calls with all words renamed by an injective map of characters (keeping the markers and the null character) gives the same observations with renamed words, in the same order and with the same scores and exceptions, in exact arithmetic and bit for bit with floats. The same holds in exact arithmetic for all words reversed. Case folding and normaliser, if used, must commute with the map.", "quantifier": "all constructor arguments, sequences of calls and maps; all roundings", "why_tests_cant": "it compares two unbounded histories", "anchors": ["nmd/nmd_word_set.py:WordSet"]}
{"id": "C181", "title": "Word lists of renamed and reversed words", "statement": "After the same calls with all words renamed by an injective map of characters that keeps the markers, add_word and lookup give the same results with renamed words, in the same order (also among ties), with the same scores and exceptions; bit for bit with floats. After the same calls with all words reversed, lookups give the same scores and exceptions if all sizes are at least 2; with size 1 they need not.", "quantifier": "all constructor arguments, sequences of calls, queries and maps; all roundings (renaming); all monotone means (reversal)", "why_tests_cant": "it compares two unbounded histories", "anchors": ["nmd/nmd_index.py:ApproxWordListV6", "nmd/nmd_index.py:ApproxWordListV5"]}
{"id": "C182", "title": "Searching and replacing whole words", "statement": "In a text of words joined by a separator, where no stored key contains the separator, is empty or lies inside a word without being that word, findall gives exactly the stored words in order (each key once if the words are distinct and contain the keys), and translate replaces exactly the stored words by their values. A key inside a longer word is found all the same.", "quantifier": "all tries, separators and lists of words, of any length", "why_tests_cant": "the test tries ten random selections from one list of words", "anchors": ["experiments/find_replace_trie.py:Trie.findall", "experiments/find_replace_trie.py:Trie.translate", "tests/test_find_replace_trie.py:test_trie_regex"]}
{"id": "C183", "title": "Replacements of words can be undone and repeated", "statement": "A replacement of whole words is undone by translating with a trie that maps the values back, and a second translation with the same trie changes nothing when no value contains a key.", "quantifier": "all pairs of tries, separators and lists of words meeting the conditions", "why_tests_cant": "it composes two searches over unbounded texts", "anchors": ["experiments/find_replace_trie.py:Trie.translate"]}
{"id": "C184", "title": "re.findall with the generated pattern finds exactly the stored words", "statement": "For keys that no option rewrites, re.findall(trie.to_regex(), text) over words joined by a separator gives exactly the stored words in order, under the conditions of C182.", "quantifier": "all tries after any calls, options without boundary, separators and lists of words", "why_tests_cant": "the test tries ten random selections from one list of words", "anchors": ["experiments/find_replace_trie.py:Trie.to_regex", "tests/test_find_replace_trie.py:test_trie_regex"]}
{"id": "C185", "title": "boundary=True searches for whole words", "statement": "For keys and words of word characters and a separator that is none, re.findall(trie.to_regex(boundary=True), text) gives exactly the stored words in order, also when a stored key lies inside other words.", "quantifier": "all tries after any calls, other options, separators and lists of words", "why_tests_cant": "no test uses the option; texts are unbounded", "anchors": ["experiments/find_replace_trie.py:Trie.to_regex"]}
{"id": "C186", "title": "Threads that add and discard words one at a time", "statement": "Several threads add, discard and look up words of one WordSet, and no two calls of add or discard overlap. Then each of these calls returns (or raises) what it would if they were made one after another in the order in which they begin, and whenever none is in progress all further calls do.", "quantifier": "all reachable sets, all threads and arguments, all interleavings of their steps, all enumeration orders of sets of n-grams", "why_tests_cant": "the result depends on where threads are switched; a test runs through few of the interleavings", "anchors": ["nmd/nmd_word_set.py:WordSet.add", "nmd/nmd_word_set.py:WordSet.discard", "nmd/nmd_word_set.py:WordSet.find_similar"]}
{"id": "C187", "title": "find_similar while other threads add and discard words", "statement": "Under the conditions of C186 and with a filter, find_similar raises KeyError, or what it would raise alone at some moment of the call, or it returns at most the number of words asked for, the best first, none twice, each with the score with which it would be found alone at some moment of the call; a word that would be found at every moment is missing only if the list is full of words at least as good.", "quantifier": "all reachable sets with a filter, all threads and arguments, all interleavings of their steps, all enumeration orders of sets of n-grams", "why_tests_cant": "the result depends on where threads are switched; a test runs through few of the interleavings", "anchors": ["nmd/nmd_word_set.py:WordSet.add", "nmd/nmd_word_set.py:WordSet.discard", "nmd/nmd_word_set.py:WordSet.find_similar"]}
{"id": "C188", "title": "A discard harms no search that begins after it returns", "statement": "Under the conditions of C186, a find_similar that no discard overlaps returns (or raises) exactly what it would alone after some of the calls made one after another: all that had returned before it began and some additions that overlap it; without a filter it may raise RuntimeError. So the KeyError of C187 comes only from a discard that overlaps the search.", "quantifier": "all reachable sets, all threads and arguments, all interleavings of their steps, all enumeration orders of sets of n-grams", "why_tests_cant": "the result depends on where threads are switched; a test runs through few of the interleavings", "anchors": ["nmd/nmd_word_set.py:WordSet.add", "nmd/nmd_word_set.py:WordSet.discard", "nmd/nmd_word_set.py:WordSet.find_similar"]}
{"id": "C189", "title": "Threads that add different words to one WordList", "statement": "Several threads call add_word of one WordList, and at no time are two calls for the same word in progress. If, when all have ended, no call has raised that could have succeeded alone, then each has returned or raised what it does alone, and the list behaves like one to which the words were added one after another in any order: the same vocabulary, the same exceptions and the same scores of all lookups, now and after any further calls.", "quantifier": "all reachable word lists, all threads and arguments, all interleavings of their steps, all enumeration orders of sets of n-grams and sizes", "why_tests_cant": "the result depends on where threads are switched; a test runs through few of the interleavings", "anchors": ["nmd/nmd_index.py:WordList.add_word", "nmd/nmd_index.py:WordList._resolve_word_index", "nmd/nmd_index.py:WordList.lookup", "nmd/nmd_index.py:WordList.vocabulary"]}
{"id": "C190", "title": "Overlapping additions of the same word can be counted twice", "statement": "Without the proviso of C189 that overlapping calls add different words, its conclusion is false, without any sign: two calls of add_word for the same word can both return and leave the vocabulary as it should be, but the n-grams are entered twice, and a lookup of the word itself with normalize=True gives it a similarity of 2.", "quantifier": "a negation: there are a reachable list, two threads and an interleaving", "why_tests_cant": "the interleaving is rare; both calls return and nothing is raised", "anchors": ["nmd/nmd_index.py:WordList.add_word", "nmd/nmd_index.py:WordList._resolve_word_index", "nmd/nmd_index.py:WordList.lookup", "nmd/nmd_index.py:WordList.vocabulary"]}
{"id": "C191", "title": "A word whose add_word raised in a race is listed but never found", "statement": "Threads call add_word of one WordList, at no time two calls for the same word. If a call raises that could have succeeded alone, its word is in the vocabulary, adding the word again returns without doing anything, and no lookup, whatever its arguments, returns the word.", "quantifier": "all reachable word lists, all threads and arguments, all interleavings of their steps, all enumeration orders of sets of n-grams and sizes, all later lookups", "why_tests_cant": "the result depends on where threads are switched; a test runs through few of the interleavings", "anchors": ["nmd/nmd_index.py:WordList.add_word", "nmd/nmd_index.py:WordList._resolve_word_index", "nmd/nmd_index.py:WordList.lookup", "nmd/nmd_index.py:WordList.vocabulary"]}
{"id": "C192", "title": "A WordList that lists a word twice accepts no new words", "statement": "Threads call add_word of one WordList in whatever way. If, when all have ended, the vocabulary contains some word twice, then after any further calls made one after another every add_word of a word that is not in the vocabulary raises AssertionError.", "quantifier": "all reachable word lists, all threads and arguments, all interleavings of their steps, all enumeration orders of sets of n-grams and sizes, all later calls", "why_tests_cant": "the result depends on where threads are switched; a test runs through few of the interleavings", "anchors": ["nmd/nmd_index.py:WordList.add_word", "nmd/nmd_index.py:WordList._resolve_word_index", "nmd/nmd_index.py:WordList.lookup", "nmd/nmd_index.py:WordList.vocabulary"]}
{"id": "C193", "title": "After a race even a word whose add_word returned can be missed", "statement": "Threads call add_word of one WordList, at no time two calls for the same word. It is not true that a word whose call returned is then the best match of a lookup of that word itself with normalize=True: when another call raised because of a race, the numbers of n-grams of the words can be exchanged.", "quantifier": "a negation: there are a reachable list, two threads and an interleaving", "why_tests_cant": "the interleaving is rare, and the call concerned returns", "anchors": ["nmd/nmd_index.py:WordList.add_word", "nmd/nmd_index.py:WordList._resolve_word_index", "nmd/nmd_index.py:WordList.lookup", "nmd/nmd_index.py:WordList.vocabulary"]}
{"id": "C194", "title": "A lookup while other threads add words", "statement": "A thread calls lookup of a WordList while others call add_word of it; at no time are two calls for the same word in progress, and in the end no call has raised that could have succeeded alone. If the lookup returns, it returns distinct words of the final vocabulary, at most top_k, best first, that share n-grams with the query; the first score of each is at most the one computed from the strings, and the second is the bigram similarity. A word that was stored when the lookup began has its exact score, and is missing from the answer only if at least top_k other words of the final vocabulary score at least as well. If the lookup raises, a lookup of the same word with the same normalize and some top_k raises the same exception in the end, when nobody adds words; in particular it raises no IndexError or KeyError because of the other threads.", "quantifier": "all reachable word lists, all threads and arguments, all interleavings of their steps, all enumeration orders of sets of n-grams and sizes, all monotone means", "why_tests_cant": "the result depends on where threads are switched; a test runs through few of the interleavings", "anchors": ["nmd/nmd_index.py:WordList.add_word", "nmd/nmd_index.py:WordList.lookup", "nmd/nmd_index.py:WordList.vocabulary"]}
{"id": "C195", "title": "A lookup while another thread adds a word can come back empty", "statement": "It is not true that a lookup that runs while another thread adds a word returns at least one word if it finds one in the list as it was before: the new word can crowd the stored one out when counts are compared, and then not be found itself because its positions are not entered yet.", "quantifier": "a negation: there are a reachable list, a call of add_word, a lookup and an interleaving", "why_tests_cant": "the interleaving is rare, and nothing is raised", "anchors": ["nmd/nmd_index.py:WordList.add_word", "nmd/nmd_index.py:WordList.lookup", "nmd/nmd_index.py:WordList.vocabulary"]}
{"id": "C196", "title": "A lookup that nobody disturbs", "statement": "Whatever state a WordList is in, even while calls of add_word of other threads are half done: a lookup during which no other thread makes a step ends and returns or raises what the lookup of the sequential model computes from that state, whatever the enumeration order of its set of n-grams.", "quantifier": "all states of the list, reachable or not, all arguments, all enumeration orders", "why_tests_cant": "a test cannot stop the other threads at each of their steps", "anchors": ["nmd/nmd_index.py:WordList.add_word", "nmd/nmd_index.py:WordList.lookup", "nmd/nmd_index.py:WordList.vocabulary"]}
{"id": "C197", "title": "The caches of n-grams cannot be seen in a WordList", "statement": "get_n_grams and num_grams remember their results for the whole process (lru_cache), and get_n_grams hands out the list that it keeps. Still, in every program that does not change a list returned by get_n_grams, every WordList, ApproxWordListV5 and ApproxWordListV5b has the contents and returns the results that it would have and return if nothing were remembered, however calls of different lists, of get_n_grams and num_grams (also with floats), of ApproxWordListV3 and of cache_clear are mixed, and whatever is dropped from the caches.", "quantifier": "all programs (lists of calls) with any number of word lists, all words, all sizes of the caches, all case foldings, all means", "why_tests_cant": "the caches are global and hold 65535 entries; what a test sees depends on all calls made before it in the process", "anchors": ["nmd/nmd_index.py:get_n_grams", "nmd/nmd_index.py:num_grams", "nmd/nmd_index.py:ApproxWordListV6", "nmd/nmd_index.py:ApproxWordListV5", "nmd/nmd_index.py:ApproxWordListV3", "experiments/gemini_optimized_v5.py:ApproxWordListV5b"]}
{"id": "C198", "title": "With ints nothing at all can be seen of the caches", "statement": "If moreover every n passed to get_n_grams, num_grams and ApproxWordListV3 is an int, then all calls of the program return what they would return if nothing were remembered, also those of get_n_grams, num_grams and ApproxWordListV3, and all lists have the contents that they would have.", "quantifier": "all programs (lists of calls) with any number of word lists, all words, all sizes of the caches, all case foldings, all means", "why_tests_cant": "the caches are global and hold 65535 entries; what a test sees depends on all calls made before it in the process", "anchors": ["nmd/nmd_index.py:get_n_grams", "nmd/nmd_index.py:num_grams", "nmd/nmd_index.py:ApproxWordListV6", "nmd/nmd_index.py:ApproxWordListV5", "nmd/nmd_index.py:ApproxWordListV3", "experiments/gemini_optimized_v5.py:ApproxWordListV5b"]}
{"id": "C199", "title": "One list made with a float breaks others", "statement": "Adding a word to ApproxWordListV3([2.0]) raises TypeError, and leaves the float that num_grams returned in its cache, where num_grams(len, 2) finds it. From then on adding a word of the same length to any new ApproxWordListV3([2]) raises TypeError, and so does every lookup of a word of that length; and a second attempt to add the word succeeds without doing anything. This holds for every n from 2 on and all words, unless num_grams had been called with the int before. Whatever the process has done before, adding a word that has an n-gram of size q to ApproxWordListV3([q]) raises TypeError for every float q greater than 1; a word without one is accepted only if num_grams was first called with the int. Of equal sizes the first counts: words can be added to ApproxWordListV3([2, 2.0]) but not to ApproxWordListV3([2.0, 2]).", "quantifier": "all n from 2 on, all words, all states of the process in which num_grams has not been called with this length and n; for the last two sentences all histories of the process and all floats greater than 1", "why_tests_cant": "whether it happens depends on which list was used first", "anchors": ["nmd/nmd_index.py:get_n_grams", "nmd/nmd_index.py:num_grams", "nmd/nmd_index.py:ApproxWordListV6", "nmd/nmd_index.py:ApproxWordListV5", "nmd/nmd_index.py:ApproxWordListV3"]}
{"id": "C200", "title": "Changing a list of n-grams spoils words", "statement": "If a program empties the list that get_n_grams(word, n) returned, and then adds the word to a new WordList(n, filter_n=0), add_word succeeds and the vocabulary contains the word, but no lookup of any word ever finds it.", "quantifier": "all words, all n from 1 on, all earlier histories of the process, all lookups", "why_tests_cant": "the list can be changed anywhere in the process, long before", "anchors": ["nmd/nmd_index.py:get_n_grams", "nmd/nmd_index.py:num_grams", "nmd/nmd_index.py:ApproxWordListV6", "nmd/nmd_index.py:ApproxWordListV5", "nmd/nmd_index.py:ApproxWordListV3"]}
{"id": "C201", "title": "How long lists of n-grams are kept", "statement": "Neither cache ever holds more than maxsize entries. A second call of get_n_grams with the same word and n returns the same list object if and only if the function was called with fewer than maxsize different other arguments in between; otherwise it returns a new list with the right contents, even if the old one was changed.", "quantifier": "all histories of the process, all words and n, all sequences of calls in between, all sizes of the cache", "why_tests_cant": "maxsize is 65535; the claim is an equivalence over all sequences of calls", "anchors": ["nmd/nmd_index.py:get_n_grams", "nmd/nmd_index.py:num_grams", "nmd/nmd_index.py:ApproxWordListV6", "nmd/nmd_index.py:ApproxWordListV5", "nmd/nmd_index.py:ApproxWordListV3"]}
{"id": "C202", "title": "When get_n_grams accepts a float", "statement": "get_n_grams(word, n) for a float n greater than 1 that is not an integer always raises TypeError. For an integer n from 2 on, get_n_grams(word, float(n)) after get_n_grams(word, n) returns the very list that the call with the int returned, if get_n_grams was called with fewer than maxsize different other arguments in between, and raises TypeError otherwise. So whether a float is accepted depends on the history of the process.", "quantifier": "all histories of the process, all words, all n, all sequences of calls in between, all sizes of the cache", "why_tests_cant": "the same call raises or not depending on all calls made before it, and maxsize is 65535", "anchors": ["nmd/nmd_index.py:get_n_grams"]}
{"id": "C203", "title": "A lookup is a full scan, ties included", "statement": "A WordList.lookup that does not raise returns exactly the list that a full scan without n-gram tables, filter tables and pruning returns: the same words with the same pairs of scores in the same order. The scan takes the eligible words in the order in which the query comes across them (by n, then by n-gram of the query in order of appearance, then by insertion), takes the first 2*top_k by aggregated score and of these the first top_k by the pair of scores, ties keeping their order in both steps.", "quantifier": "all sequences of calls, all queries, top_k, normalize, all aggregates that do not decrease when a score grows", "why_tests_cant": "the order among ties depends on the order of insertion into several dictionaries and on which words the pruning kept; tests check a few queries with distinct scores", "anchors": ["nmd/nmd_index.py:ApproxWordListV6.lookup", "nmd/nmd_index.py:ApproxWordListV6.__lookup_similarity", "nmd/nmd_index.py:ApproxWordListV6.add_word"]}
{"id": "C204", "title": "Only words that share an n-gram with the query matter", "statement": "Two lists with the same configuration whose words sharing an n-gram with the query (for the filter and for one of the sizes) are the same and were added in the same order answer the query alike: the same words, scores and order, or the same exception. This holds for WordList (V6) and for ApproxWordListV5.", "quantifier": "all pairs of histories, all queries and arguments, valid or not", "why_tests_cant": "relates two lists of any size; a threshold computed over all candidates could let an unrelated word in", "anchors": ["nmd/nmd_index.py:ApproxWordListV6.lookup", "nmd/nmd_index.py:ApproxWordListV6.__lookup_similarity", "nmd/nmd_index.py:ApproxWordListV6.add_word", "nmd/nmd_index.py:ApproxWordListV5.lookup"]}
{"id": "C205", "title": "Adding unrelated words does not change an answer", "statement": "After adding any words none of which shares an n-gram with the query, and any lookups, WordList.lookup answers the query as before: the same words, scores and order, or the same exception.", "quantifier": "all lists, all sequences of later calls, all queries and arguments", "why_tests_cant": "quantifies over all later histories", "anchors": ["nmd/nmd_index.py:ApproxWordListV6.lookup", "nmd/nmd_index.py:ApproxWordListV6.__lookup_similarity", "nmd/nmd_index.py:ApproxWordListV6.add_word"]}
{"id": "C206", "title": "When asking for fewer results gives the beginning of the list", "statement": "If no tie at the end of the first top_k scores stretches beyond the first 2*top_k, then lookup returns the top_k best of all words by the pair of scores, and a lookup with a smaller top_k returns the beginning of the list. Without the condition this fails: with WordList(n=3) holding abcxy, abcxz and abcxd, lookup('abcd', top_k=1) returns abcxy, while lookup('abcd', top_k=2) puts abcxd first, which has the same score and a better bigram similarity.", "quantifier": "all sequences of calls, all queries, all pairs of top_k", "why_tests_cant": "depends on where the ties fall in the ranking of all words", "anchors": ["nmd/nmd_index.py:ApproxWordListV6.lookup", "nmd/nmd_index.py:ApproxWordListV6.__lookup_similarity", "nmd/nmd_index.py:ApproxWordListV6.add_word"]}
{"id": "C207", "title": "A word-set search for fewer words is the beginning of the longer answer", "statement": "If find_similar(word, k, min_similarity) and find_similar(word, k', min_similarity) with k <= k' both return, the first result is the first k entries of the second, scores and order included.", "quantifier": "all sequences of calls on the set, all query words, all k <= k', all thresholds", "why_tests_cant": "ties and the choice of the scan (by grams or over all words) could differ with k for some set; tests try a few sets", "anchors": ["nmd/nmd_word_set.py:WordSet.find_similar"]}
{"id": "C208", "title": "Adding or discarding one word changes only that word's place in a search", "statement": "After set.discard(v), find_similar with k returns what it returned before with k+1 minus the entry of v, cut to k. After set.add(v) for a v that was not in the set, the earlier answer with k is the new answer with k+1 minus the entry of v, cut to k. The other words keep their scores and their order, ties included.", "quantifier": "all sequences of calls before, all words, queries, k, thresholds", "why_tests_cant": "freed slots are reused, so the internal numbering changes after each discard; only a proof covers every history", "anchors": ["nmd/nmd_word_set.py:WordSet.find_similar", "nmd/nmd_word_set.py:WordSet.add", "nmd/nmd_word_set.py:WordSet.discard", "nmd/nmd_word_set.py:WordSet.__contains__", "nmd/nmd_word_set.py:WordSet.__len__", "nmd/nmd_word_set.py:WordSet.__iter__"]}
{"id": "C209", "title": "What adding a word to a word list does to an answer", "statement": "If no long tie lies at the cut before and after (as in C206), then after add_word(v) for a new v the earlier answer with top_k is the new answer with top_k+1 minus the entry of v, cut to top_k: the other words keep their scores and order. Without the condition this fails: in WordList(n=3) with ucdvwdef and acdvwdef, lookup('abcdef', top_k=1) returns acdvwdef; after adding abcuvwxy it returns ucdvwdef, which has the same score and a lower bigram similarity, though the new word is not in the answer.", "quantifier": "all sequences of calls before, all words, queries, top_k, normalize, all aggregates that do not decrease when a score grows", "why_tests_cant": "depends on where the ties fall in the ranking of all words", "anchors": ["nmd/nmd_index.py:ApproxWordListV6.lookup", "nmd/nmd_index.py:ApproxWordListV6.__lookup_similarity", "nmd/nmd_index.py:ApproxWordListV6.add_word"]}
{"id": "C210", "title": "Similarity and common n-grams", "statement": "ngram_movers_distance(a, b, n, invert=True) lies between the number c of n-grams the padded words have in common (counted with multiplicity) and 2*c. With normalize=True it lies between half the Dice coefficient of the n-grams and the Dice coefficient, so cheap counts bound it from both sides (the README asks for such bounds).", "quantifier": "all pairs of words without markers, all n >= 2 (for the normalised value: both words have an n-gram)", "why_tests_cant": "an inequality over all pairs of words and all arrangements of their n-grams", "anchors": ["nmd/nmd_core.py:ngram_movers_distance", "README.md"]}
{"id": "C211", "title": "A common block of characters guarantees similarity", "statement": "If both words contain the same block of L characters, anywhere, the similarity is at least L-n+1; if both begin or both end with it, at least L-n+2.", "quantifier": "all words without markers, all blocks, all n >= 2", "why_tests_cant": "the block may occur several times and at any distance in both words", "anchors": ["nmd/nmd_core.py:ngram_movers_distance"]}
{"id": "C212", "title": "Scores of a word set and common n-grams; common blocks are found", "statement": "Every score returned by WordSet.find_similar lies between half the Dice coefficient of the n-grams of query and word (all sizes together) and the Dice coefficient. A stored word that has a block of characters in common with the query, at least as long as the filter size, is returned with a score of at least the number of n-grams of the block divided by the number of n-grams of both words, unless k words that score at least as well are returned.", "quantifier": "all sequences of calls on the set, all queries, k, all blocks", "why_tests_cant": "all histories, all words", "anchors": ["nmd/nmd_word_set.py:WordSet.find_similar"]}
{"id": "C213", "title": "A word list finds words that have a block in common with the query", "statement": "If a stored word and the query have a block of characters in common that is as long as the filter size and as one of the sizes n, then a lookup that does not raise returns the word, or top_k words that score at least as well. The score for a size n is at least L-n+1 (normalised: divided by the number of n-grams of both words).", "quantifier": "all sequences of calls, queries, top_k, normalize, blocks, aggregates that do not decrease when a score grows", "why_tests_cant": "all histories; the pruning could lose the word", "anchors": ["nmd/nmd_index.py:ApproxWordListV6.lookup", "nmd/nmd_index.py:ApproxWordListV6.add_word"]}
{"id": "C214", "title": "Searching a word set part by part", "statement": "If the words of a set are those of a first set followed by those of a second (same configuration), then find_similar on the whole returns the k best of the two answers put together, those of the first part coming first among equal scores. So a collection can be searched in parts and the answers merged.", "quantifier": "all triples of sets whatever their history, all queries, k, thresholds", "why_tests_cant": "relates three objects of any size and history; ties and filter tables differ between them", "anchors": ["nmd/nmd_word_set.py:WordSet.find_similar"]}
{"id": "C215", "title": "Looking up in parts of a word list", "statement": "If the words of a WordList are divided over two lists with the same configuration, the aggregated scores of a lookup that does not raise are the top_k best of those of the two lookups put together. If there are no long ties (C206), this also holds for the pairs of scores.", "quantifier": "all triples of lists whatever their history, all queries, top_k, normalize, aggregates that do not decrease when a score grows", "why_tests_cant": "relates three objects; the pruning threshold of the whole differs from those of the parts", "anchors": ["nmd/nmd_index.py:ApproxWordListV6.lookup", "nmd/nmd_index.py:ApproxWordListV6.add_word"]}
{"id": "C216", "title": "Points in common do not matter", "statement": "emd_1d_dp gives the same result after points that both sequences have are removed from both (each as often as both have it), so it depends only on the two differences of the bags of points; if one side has all points of the other, the result is the number of additional points, wherever they are. emd_1d_hybrid, emd_1d_old and emd_1d_slow have the same property for points within the distance that they support (2, 1, 1).", "quantifier": "all finite sequences of points, in any order, with repetitions", "why_tests_cant": "for all sequences; false for other distances with a cost for unmatched points, and the implementations remove common points before they search", "anchors": ["nmd/emd_1d.py:emd_1d_dp", "nmd/emd_1d.py:emd_1d_hybrid", "nmd/emd_1d.py:emd_1d_old", "nmd/emd_1d.py:emd_1d_slow"]}
{"id": "C217", "title": "Moving and stretching points", "statement": "emd_1d_dp is unchanged by any map that keeps the distances between points of the two sides, in particular by shifting or reflecting all points. Stretching all positions by a factor f >= 1 gives a result between the old one and f times it. Moving each point of one side by at most d changes the result by at most d per point.", "quantifier": "all finite sequences of points, all maps, factors and bounds", "why_tests_cant": "for all sequences and all maps", "anchors": ["nmd/emd_1d.py:emd_1d_dp"]}
{"id": "C218", "title": "The approximate searches agree", "statement": "For the same entries, Trie.levenshtein_lookup with default costs, a search of a BK tree and find_all_matches with a Levenshtein automaton return the same non-empty words: those entries whose edit_distance from the query is at most the bound.", "quantifier": "all lists of entries, all ways to fill the trie and the tree, all non-empty queries, all bounds, all iteration orders of sets", "why_tests_cant": "three algorithms with different pruning, on all dictionaries", "anchors": ["experiments/find_replace_trie.py:Trie.levenshtein_lookup", "experiments/automata.py:BKNode", "experiments/automata.py:find_all_matches", "experiments/edit_distance.py:edit_distance"]}
{"id": "C219", "title": "A word graph and a trie of the same words answer alike", "statement": "After inserting strictly increasing non-empty words with data into a DAWG and finalizing it, and storing the same items in a Trie: `in` and lookups agree for every word, the items of the DAWG are the items of the trie after sort_keys(), and the index of a word in the DAWG is its position among the keys of the sorted trie.", "quantifier": "all strictly increasing lists of non-empty words shorter than the recursion limit, all queries", "why_tests_cant": "all dictionaries and all queries; the graph shares nodes", "anchors": ["experiments/dawg.py:DAWG", "experiments/find_replace_trie.py:Trie"]}
{"id": "C220", "title": "Searches of a word set with floats: fewer words, one word more or less, parts", "statement": "C207, C208 and C214 hold exactly for find_similar computed with floats: fewer results are the beginning of more results, adding or discarding a word changes only that word's place, and the answer of a whole set is the merge of the answers of its parts.", "quantifier": "all sequences of calls, all queries, all ways of rounding", "why_tests_cant": "all histories; computed scores may tie or be out of order with the true ones", "anchors": ["nmd/nmd_word_set.py:WordSet.find_similar"]}
{"id": "C221", "title": "ApproxWordListV5b equals a full scan including ties", "statement": "lookup of an ApproxWordListV5b returns exactly the top_k best eligible words (sharing an n-gram, within the filter) that a full scan without index, tables and pruning returns, ties in the order in which the query comes across the words. The answer, exceptions included, depends only on the configuration and the eligible words in the order of adding; adding words that share no n-gram with the query changes nothing.", "quantifier": "all reachable states, all queries and top_k, both values of normalize", "why_tests_cant": "the pruning threshold, the cache and the dictionaries must not disturb any ranking for any vocabulary, ties included", "anchors": ["experiments/gemini_optimized_v5.py:ApproxWordListV5b.lookup", "experiments/gemini_optimized_v5.py:ApproxWordListV5b.add_word"]}
{"id": "C222", "title": "ApproxWordListV5b: fewer results, one word more, parts", "statement": "For an ApproxWordListV5b a smaller top_k returns the beginning of the longer answer; a new word changes nothing but its own appearance in the answer; the scores of a lookup in a list whose words are divided over two lists are the merge of the scores of the parts.", "quantifier": "all reachable states, all queries and positive top_k", "why_tests_cant": "relates the answers of different states and counts with pruning by a running threshold", "anchors": ["experiments/gemini_optimized_v5.py:ApproxWordListV5b.lookup", "experiments/gemini_optimized_v5.py:ApproxWordListV5b.add_word"]}
{"id": "C223", "title": "ApproxWordListV5 and ApproxWordListV5b agree", "statement": "Whenever lookup of an ApproxWordListV5 returns, the first top_k of its (up to 2 top_k) results are the results of lookup of an ApproxWordListV5b with the same words: the same words with the same scores in the same order, ties included.", "quantifier": "all reachable states with the same words, all queries and top_k", "why_tests_cant": "equivalence of the reference and the optimised program for all vocabularies and queries", "anchors": ["experiments/gemini_optimized_v5.py:ApproxWordListV5b.lookup", "experiments/gemini_optimized_v5.py:ApproxWordListV5b.add_word", "nmd/nmd_index.py:ApproxWordListV5.lookup"]}
{"id": "C224", "title": "ApproxWordListV3 equals a full scan including ties", "statement": "lookup of an ApproxWordListV3 with positive sizes either raises as in C70 or returns exactly the list of a full scan, ties in the order in which the query comes across the words. The answer, exceptions included, depends only on the configuration and the stored words that share an n-gram with the query in the order of adding; adding words that share no n-gram changes nothing.", "quantifier": "all constructor arguments with positive sizes, all histories of add_word calls, all queries, all top_k", "why_tests_cant": "the order of ties comes from nested dictionaries built by the whole history", "anchors": ["nmd/nmd_index.py:ApproxWordListV3.lookup", "nmd/nmd_index.py:ApproxWordListV3.add_word"]}
{"id": "C225", "title": "ApproxWordListV3: fewer results, one word more, parts", "statement": "For an ApproxWordListV3 a positive top_k returns the beginning of the answer without top_k (and raises the same exceptions); if a lookup succeeds, it succeeds after adding a new word too and only that word is inserted into the answer; when the words are divided over two lists and the lookups succeed, the scores of the whole are the merge of those of the parts.", "quantifier": "all reachable states, all queries", "why_tests_cant": "relates the answers of different states and counts", "anchors": ["nmd/nmd_index.py:ApproxWordListV3.lookup", "nmd/nmd_index.py:ApproxWordListV3.add_word"]}
{"id": "C226", "title": "With floats, ApproxWordListV5b still equals a full scan including ties", "statement": "With floats, the state of an ApproxWordListV5b is that of exact arithmetic with rounded positions, and lookup, normalised or not, returns exactly the top_k best eligible words by the computed scores: pruning by computed bounds loses nothing, and ties come in the order in which the query comes across the words. The answer, exceptions included, depends only on the configuration and the eligible words in the order of adding; adding words that share no n-gram with the query changes nothing.", "quantifier": "all constructor arguments, all histories of add_word calls, all queries and top_k, lengths up to 2^53 together; every rounding with the stated properties that doubles exactly, binary64 in particular, and every aggregation that is monotone in it", "why_tests_cant": "one unlucky rounding in a bound could prune a result; the combinations of words cannot be enumerated", "anchors": ["experiments/gemini_optimized_v5.py:ApproxWordListV5b.lookup", "experiments/gemini_optimized_v5.py:ApproxWordListV5b.add_word"]}
{"id": "C227", "title": "With floats, ApproxWordListV5b: fewer results, one word more, parts", "statement": "With floats, for an ApproxWordListV5b a smaller top_k returns the beginning of the longer answer; a new word changes nothing but its own appearance in the answer; the computed scores of a lookup in a list whose words are divided over two lists are the merge of the computed scores of the parts.", "quantifier": "all reachable states, all queries and top_k, lengths up to 2^53 together", "why_tests_cant": "relates the answers of different states and counts, bit for bit", "anchors": ["experiments/gemini_optimized_v5.py:ApproxWordListV5b.lookup", "experiments/gemini_optimized_v5.py:ApproxWordListV5b.add_word"]}
{"id": "C228", "title": "With floats, scores of ApproxWordListV5b are close to the exact ones, but a self-score need not be 1", "statement": "With floats, the normalised score of ApproxWordListV5b differs from the exact one by at most (5T + 4N + 6)u, where T bounds the total number of n-grams, N is the number of sizes and u the unit roundoff. Unlike in ApproxWordListV5 and V6 the score of a stored word for itself need not be 1.0: it can be larger (8 letters, n = 2) and smaller (9 letters).", "quantifier": "all queries, words and sizes with T u <= 1/2 and (N+1) u <= 1/2; every rounding with the stated properties", "why_tests_cant": "a bound on an error over all inputs; and a test with a few words would see 1.0", "anchors": ["experiments/gemini_optimized_v5.py:ApproxWordListV5b.lookup", "experiments/gemini_optimized_v5.py:ApproxWordListV5b.__lookup_similarity"]}
{"id": "C229", "title": "With floats, an exact match ranks first in ApproxWordListV5b", "statement": "With floats, a normalised lookup of a stored word in an ApproxWordListV5b returns that word first, with a score of 1 up to the error of C228, and every other word in the answer has a strictly smaller score.", "quantifier": "all reachable states, all stored words, sizes of at least 2 for which the word has n-grams, at most 4096 sizes, and up to 4094 characters in query and word together", "why_tests_cant": "the score of the exact match may be less than 1, so another word could come first by rounding; all pairs of words would have to be tried", "anchors": ["experiments/gemini_optimized_v5.py:ApproxWordListV5b.lookup", "experiments/gemini_optimized_v5.py:ApproxWordListV5b.__lookup_similarity"]}
{"id": "C230", "title": "With floats, a lookup equals a full scan including ties", "statement": "With floats, WordList.lookup returns exactly what a scan without index, filter tables and pruning returns: of the 2 top_k eligible words with the best computed scores, the top_k best by the pair of computed scores, bit for bit, ties in the order in which the query comes across the words.", "quantifier": "all reachable states, queries and top_k. Unnormalised: every aggregate that is monotone on floats, no configured n with exactly one n-gram of the query, lengths up to 2^53 together. Normalised: dim = 1, sizes of at least 2 with a non-zero divisor, at most 8192 sizes, up to 8190 characters in query and word together", "why_tests_cant": "one unlucky rounding in a bound could prune a result or reorder a tie; the combinations of words cannot be enumerated", "anchors": ["nmd/nmd_index.py:ApproxWordListV6.lookup", "nmd/nmd_index.py:ApproxWordListV6.__lookup_similarity"]}
{"id": "C231", "title": "With floats, a lookup depends only on the eligible words", "statement": "With floats, the answer of WordList and of ApproxWordListV5, exceptions included and bit for bit, depends only on the configuration and on the words that share an n-gram with the query, in the order in which they were added. Adding other words changes nothing.", "quantifier": "all pairs of reachable states with the same configuration, all arguments, every rounding, every aggregate whatsoever", "why_tests_cant": "relates the answers of arbitrary pairs of states", "anchors": ["nmd/nmd_index.py:ApproxWordListV6.lookup", "nmd/nmd_index.py:ApproxWordListV6.__lookup_similarity", "nmd/nmd_index.py:ApproxWordListV5.lookup", "nmd/nmd_index.py:ApproxWordListV5.__lookup_similarity"]}
{"id": "C232", "title": "With floats, WordList returns the best of what ApproxWordListV5 returns", "statement": "With floats, ApproxWordListV5.lookup with invert=True returns at most 2 top_k different eligible words, sorted by their computed scores, and WordList.lookup returns the top_k best of them by that score and the computed ngram_movers_distance; either both raise the same exception or none does. invert=False reports the rounded differences of the same scores and sorts by them in descending order. The first top_k words of V5 are those of a full scan by the score, ties included.", "quantifier": "all reachable states and arguments, every rounding and aggregate; the last part under the conditions of C230", "why_tests_cant": "agreement of two functions on all states", "anchors": ["nmd/nmd_index.py:ApproxWordListV6.lookup", "nmd/nmd_index.py:ApproxWordListV6.__lookup_similarity", "nmd/nmd_index.py:ApproxWordListV5.lookup", "nmd/nmd_index.py:ApproxWordListV5.__lookup_similarity"]}
{"id": "C233", "title": "With floats, a lookup in ApproxWordListV3 equals a full scan including ties", "statement": "After any sequence of add_word calls, lookup with floats raises exactly when it does in exact arithmetic, and otherwise returns bit for bit what a scan over all stored words that share an n-gram with the query returns, ties in the order in which the query comes across the words. Words that share no n-gram with the query have no influence.", "quantifier": "all argument sequences, queries, top_k and positive sizes, every rounding and every aggregate", "why_tests_cant": "one different order of additions changes the last bit; the combinations of words cannot be enumerated", "anchors": ["nmd/nmd_index.py:ApproxWordListV3.lookup", "nmd/nmd_index.py:ApproxWordListV3.add_word"]}
{"id": "C234", "title": "With floats, lookups in ApproxWordListV3 are stable under top_k, added words and merging", "statement": "With floats, a positive top_k returns the beginning of the list returned without top_k; adding a word changes nothing but its own appearance; the scores of a list divided over two lists are the merge of those of the parts.", "quantifier": "all reachable states and arguments, every rounding and every aggregate", "why_tests_cant": "relates answers of arbitrary states", "anchors": ["nmd/nmd_index.py:ApproxWordListV3.lookup", "nmd/nmd_index.py:ApproxWordListV3.add_word"]}
{"id": "C235", "title": "With floats, the scores of ApproxWordListV3 lie between 0 and 1 and an exact match scores exactly 1.0", "statement": "With floats every score lies between 0 and 1; a lookup of a stored word succeeds and its first result has a score of exactly 1.0. The stored word itself can nevertheless come second.", "quantifier": "all reachable states with sizes of at least 2 and at most the length of the query plus 1 (dim = 1), up to 2^53 characters in query and word", "why_tests_cant": "in ApproxWordListV5b the corresponding claim fails for particular lengths only (C228); a sample of lengths proves nothing", "anchors": ["nmd/nmd_index.py:ApproxWordListV3.lookup", "nmd/nmd_index.py:ApproxWordListV3.add_word"]}
{"id": "C236", "title": "The rounding error of the scores of ApproxWordListV3", "statement": "With N sizes and at most T n-grams in query and word, the computed score differs from the exact one by at most (4T² + 2T + 2N + 4)u. Words whose exact scores differ by more than twice that are ranked as in exact arithmetic.", "quantifier": "all queries and words with 0 < n <= length of the query + 2 and T u <= 1/2, every rounding", "why_tests_cant": "a bound for all inputs", "anchors": ["nmd/nmd_index.py:ApproxWordListV3.lookup", "nmd/nmd_index.py:ApproxWordListV3.add_word"]}
{"id": "C237", "title": "Searching again with the same Matcher", "statement": "A Matcher keeps its position from one find_all_matches to the next. With one Matcher over a sorted list, every search ends without an exception and yields exactly the matching entries from some position on; the words yielded by all searches together are sorted. So repeating a search yields nothing or only the last word again, and after looking up an entry exactly no smaller entry is found any more. Exact lookups in increasing order lose nothing.", "quantifier": "all sorted lists of words without U+10FFFF, all sequences of queries, all choices of set.pop and set order", "why_tests_cant": "concerns sequences of searches of any length over any list; the usual test makes a new Matcher per search and never sees the kept position", "anchors": ["experiments/automata.py:find_all_matches", "experiments/automata.py:Matcher"]}
{"id": "C238", "title": "The number of probes of a Matcher", "statement": "A call of a Matcher adds one to probes and returns the least entry from the current position on that is not smaller than the word, or None if there is none. After searches with one Matcher, probes is at most the number of entries plus the number of yielded words plus the number of searches.", "quantifier": "all sorted lists of words without U+10FFFF, all sequences of queries", "why_tests_cant": "a bound for all inputs", "anchors": ["experiments/automata.py:find_all_matches", "experiments/automata.py:Matcher"]}
{"id": "C239", "title": "Common n-grams and blocks bound similarities computed with floats, without rounding error", "statement": "With Python's floats, ngram_movers_distance(a, b, n, invert=True) lies between the number of common n-grams and twice that number, exactly, without an error term; with normalize=True between the rounded half of the Dice coefficient and the rounded Dice coefficient. Hence a block of L characters in both words guarantees at least L-n+1, a common beginning or end at least L-n+2.", "quantifier": "all words (up to 2^53 n-grams together), all n >= 2, every rounding to nearest", "why_tests_cant": "all words; rounding errors depend on all positions", "anchors": ["nmd/nmd_core.py:ngram_movers_distance", "nmd/emd_1d.py:emd_1d"]}
{"id": "C240", "title": "Words with a common block are found with floats", "statement": "With Python's floats every score of WordSet.find_similar lies between the rounded half Dice coefficient and the rounded Dice coefficient (all sizes together). A stored word that has a block of characters in common with the query, at least as long as the filter size, is returned by find_similar with a score of at least the rounded quotient of the n-grams of the block and all n-grams, unless k words that score at least as well are returned. The same for ApproxWordListV6.lookup, where the score is at least the computed aggregate of the bounds.", "quantifier": "all sequences of calls, all queries, k, all blocks; word list normalised: mean, up to 8190 characters", "why_tests_cant": "all histories; the float pruning could lose the word", "anchors": ["nmd/nmd_word_set.py:WordSet.find_similar", "nmd/nmd_index.py:ApproxWordListV6.lookup"]}
{"id": "C241", "title": "Configuration and repr of a WordSet", "statement": "ngram_sizes and case_sensitive stay as constructed through all calls; ngram_sizes is strictly increasing, positive, and contains exactly the sizes passed. Two sets have the same repr exactly if they have the same sizes, the same case sensitivity, the same normaliser name and the same number of words, whatever characters the name of the normaliser contains.", "quantifier": "all constructor arguments, all sequences of calls on both sets, all normalisers and names", "why_tests_cant": "all histories; that a text determines its parts for all names", "anchors": ["nmd/nmd_word_set.py:WordSet.ngram_sizes", "nmd/nmd_word_set.py:WordSet.case_sensitive", "nmd/nmd_word_set.py:WordSet.__repr__"]}
{"id": "C242", "title": "ApproxWordListV5b and ApproxWordListV3 find words with a common block or a few typos", "statement": "A lookup in an ApproxWordListV5b finds a stored word that has a block of characters in common with the query (at least as long as the filter size and one of the sizes) or is few enough edits away: the word is returned, or top_k words that score at least as well; its score is at least a bound computed from the length of the block, or from the number of edits. A lookup in an ApproxWordListV3 finds such words too.", "quantifier": "all lists reached by adding words, all queries and stored words, all common blocks and edit sequences, all top_k, all monotone aggregates (V5b) or all aggregates (V3)", "why_tests_cant": "all words at a given distance and all vocabularies competing for top_k", "anchors": ["experiments/gemini_optimized_v5.py:ApproxWordListV5b.lookup", "nmd/nmd_index.py:ApproxWordListV3.lookup"]}
{"id": "C243", "title": "ApproxWordListV5b and ApproxWordListV3 with renamed or reversed words", "statement": "If all added words and the query are renamed by an injective map of characters that keeps the markers, a lookup returns the renamed words in the same order (also among equal scores) with the same scores, exceptions included. If all words and the query are reversed and the sizes are at least 2, the list of scores and the exceptions stay the same. Case folding, if used, must commute with the change.", "quantifier": "all constructor arguments (V3: positive sizes), all lists of added values, all queries, all top_k, all injective maps, all monotone aggregates (V5b) or all aggregates (V3)", "why_tests_cant": "a relation between two runs for every map of the characters and every history", "anchors": ["experiments/gemini_optimized_v5.py:ApproxWordListV5b.lookup", "nmd/nmd_index.py:ApproxWordListV3.lookup"]}
{"id": "C244", "title": "Character classes of the tokeniser against the categories of its tokens", "statement": "Every word character is a text character; the other text characters are numbers or for private use. Provided that no listed control or closing mark is a letter, number, mark or private-use character in the Unicode table, no character is both text and punctuation, every punctuation character that is no space becomes a PUNCTUATION token of its own, and a PUNCTUATION token is a punctuation character or a separator, control, format, surrogate or unassigned code point. The two notions differ in both directions: a soft hyphen gives a PUNCTUATION token and is no punctuation character, a blank Braille pattern is a punctuation character and gives a WHITESPACE token.", "quantifier": "all Unicode tables, all characters, all texts", "why_tests_cant": "more than a million characters in texts of any length, and a table that changes between Python versions", "anchors": ["experiments/tokenizer.py:is_word_char", "experiments/tokenizer.py:is_text_char", "experiments/tokenizer.py:is_punctuation_char", "experiments/tokenizer.py:unicode_tokenize"]}
{"id": "C245", "title": "Copies and equality of word graph nodes", "statement": "Before finalize, clone of a node of a DAWG gives a new object outside the graph, equal to the node and with the same words; nothing else changes, and edges added to the clone do not change the words of the graph. After finalize it raises AssertionError. In a finalized graph two nodes reached by words are equal exactly when they are the same object and exactly when the two words have the same completions; equal nodes have equal hashes. Before finalize equality is neither identity nor having the same words.", "quantifier": "all histories of insert calls, all words leading to nodes, all tables of printable characters and hash functions", "why_tests_cant": "all histories and all pairs of nodes; depends on the text of a node being injective and on the graph being minimal", "anchors": ["experiments/dawg.py:DAWGNode.clone", "experiments/dawg.py:DAWGNode.__eq__", "experiments/dawg.py:DAWGNode.__hash__"]}
{"id": "C246", "title": "Edit distances under common ends, reversal, renaming, joining and character counts", "statement": "edit_distance, levenshtein and damerau_levenshtein_distance do not change when both words get the same beginning and the same end, are read backwards, or have their characters renamed one to one. Mapping characters in any way (say, to lower case) never increases them. The distance of two joined words is at most the sum of the distances of the parts. A distance is at least the number of characters of either word, counted with multiplicity, that the other lacks.", "quantifier": "all words over all alphabets, all maps of characters", "why_tests_cant": "relations between the results of several calls on unbounded words", "anchors": ["experiments/edit_distance.py:edit_distance", "experiments/edit_distance.py:damerau_levenshtein_distance", "experiments/automata.py:levenshtein"]}
{"id": "C247", "title": "BK trees depend on distances only; how many nodes a search visits", "statement": "If the words of a BK tree and the query are changed in a way that keeps all distances (renaming characters one to one, reading backwards, putting every word between the same two texts), the search visits as many nodes and finds the changed words. The search visits at least one node, at least as many nodes as it finds words, at most as many as there are words, and with a larger k at least as many and finds at least the same words. Inserting the words in another order or repeatedly does not change what is found, though it can change the number of visited nodes.", "quantifier": "all trees, queries, integers k and distance-preserving changes of words", "why_tests_cant": "relations between several searches in trees of any shape", "anchors": ["experiments/automata.py:BKNode.insert", "experiments/automata.py:BKNode._search", "experiments/automata.py:BKNode.search"]}
{"id": "C248", "title": "With floats, ApproxWordListV5b and ApproxWordListV3 find misspelt words and words sharing a block", "statement": "With floating-point arithmetic, a lookup of a query that shares a block of characters with a stored word, or is a few edits away from it relative to the lengths and an n-gram size, does not raise, and either returns the stored word with its computed score or returns top_k words whose computed scores are all at least as large. For ApproxWordListV3 this holds for queries whose length leads to no division by zero.", "quantifier": "all roundings (for V5b: all exact-double roundings and monotone aggregations), all reachable lists, queries, stored words, numbers of edits and top_k", "why_tests_cant": "quantifies over all word lists, all misspellings and the rounding of every operation", "anchors": ["experiments/gemini_optimized_v5.py:ApproxWordListV5b.lookup", "nmd/nmd_index.py:ApproxWordListV3.lookup"]}
{"id": "C249", "title": "With floats, ApproxWordListV5b and ApproxWordListV3 do not care which characters words are made of", "statement": "With floating-point arithmetic, whatever the rounding: if all added words and the query are renamed by an injective map of characters that keeps the markers, a lookup returns the renamed words in the same order with exactly the same floats as scores, exceptions included, and adding a renamed word raises the same exception or none. Sizes, filter size, aggregation and top_k are arbitrary. Case folding, if used, must commute with the map.", "quantifier": "all operations on floats (nothing is assumed about rounding), all constructor arguments, all lists of added values, all queries, all top_k, all injective maps and all aggregates", "why_tests_cant": "a relation between two runs for every map of the characters, every history and every rounding", "anchors": ["experiments/gemini_optimized_v5.py:ApproxWordListV5b.add_word", "experiments/gemini_optimized_v5.py:ApproxWordListV5b.lookup", "nmd/nmd_index.py:ApproxWordListV3.add_word", "nmd/nmd_index.py:ApproxWordListV3.lookup"]}
{"id": "C250", "title": "What the extended edit distance depends on", "statement": "extended_edit_distance depends only on which characters are equal and which are whitespace: renaming characters one to one (keeping whitespace) changes nothing, whatever the costs; the number that stands for infinity does not matter. With the default parameters every string of length n scores 3/(10n+23) for itself, a letter for the empty string 4/13, the empty string for a letter 4/9, a letter for another letter 19/39, and two two-letter words in exchanged order 41/79, whatever the letters. Without the coverage penalty (rho = 0) raising the costs never lowers the score; with it, it can: a dearer insertion makes 'a' a better hypothesis for 'b'.", "quantifier": "all strings over all alphabets, all rational costs, all renamings, all sets of whitespace", "why_tests_cant": "relations between calls on unbounded strings and arbitrary parameters", "anchors": ["experiments/edit_distance.py:extended_edit_distance"]}
{"id": "C251", "title": "What intersect yields", "statement": "intersect(dfa1, dfa2) expects objects with start_dfa_state, edges, next and is_final_dfa_state; the NFA and DFA classes of the same module lack at least one of these, so with any of them it raises AttributeError before yielding anything. For automata that have all of them: if no way leads on from a state that counts as false, every string yielded is non-empty and accepted by both automata, however long the generator runs and in whatever order sets are iterated over; without that condition (say, a state 0) a string that neither accepts can be yielded. It is not complete: because the loop over the edges overwrites s and the states, of an automaton that accepts exactly 'a' and 'b' intersected with itself it yields only one, in every order. If after every word there is at most one common edge, every non-empty common word of length k is yielded within k rounds.", "quantifier": "all automata (any type of states), all orders of iteration over sets, all numbers of rounds of the generator", "why_tests_cant": "arbitrary automata with unboundedly many strings, a generator that need not end, and all iteration orders", "anchors": ["experiments/automata.py:intersect"]}
{"id": "C252", "title": "Range of exponents: the variants of emd_1d", "statement": "emd_1d_slow, emd_1d_hybrid and emd_1d_old, called with together at most 2**20 floats of absolute value at most 2.0**900 (subnormal ones included), never overflow and are never affected by underflow: the result, or the exception, is that of arithmetic with 53 bits and unbounded exponents, for which C147-C151 are stated; with the sum of Python before 3.12 as well as with the compensated sum of 3.12.", "quantifier": "all lists of binary64 numbers within the bounds, both versions of sum, all behaviours of operations that overflow", "why_tests_cant": "a test observes some inputs; that no intermediate result of any input leaves the range of normal numbers harmfully needs a bound on every intermediate result", "anchors": ["nmd/emd_1d.py:emd_1d_slow", "nmd/emd_1d.py:emd_1d_hybrid", "nmd/emd_1d.py:emd_1d_old"]}
{"id": "C253", "title": "What levenshtein_lookup depends on", "statement": "On character tries and with any non-negative costs: a larger bound and cheaper operations only add keys and keep the order of those yielded before; multiplying bound and costs by a positive number changes nothing; renaming characters in word and keys renames them in the yielded keys, up to order, whatever the values and the histories of calls; a trie with the keys of two tries yields exactly what one of these yields. With a transposition not cheaper than the cheapest other operation, a key is yielded for a word exactly if the word, stored in any trie, is yielded for the key with the costs of insertion and deletion exchanged. With cheaper transpositions this exchange can fail.", "quantifier": "all call histories, all non-empty words, all non-negative bounds and costs, all injective renamings", "why_tests_cant": "relates the results of a pruned search on different tries, costs and bounds, all unbounded", "anchors": ["experiments/find_replace_trie.py:Trie.levenshtein_lookup"]}
{"id": "C254", "title": "What find_all_matches depends on", "statement": "With a Matcher over sorted entries (without U+10FFFF): a larger k and more entries only add to what is yielded and keep its order; repeated entries and the order of iteration over sets do not matter; whether an entry is yielded does not depend on the other entries; an entry is yielded for a word exactly if the word is yielded for it where it is an entry; what is yielded within k' for an entry yielded within k is yielded within k + k' for the word; renaming the characters of word and entries, or reading them backwards, and sorting the entries anew, does the same to what is yielded, up to order.", "quantifier": "all words, bounds, sorted lists of entries, injective renamings and orders of iteration over sets", "why_tests_cant": "relates the results of several searches by automata and bisection over unbounded inputs and all orders of iteration over sets", "anchors": ["experiments/automata.py:find_all_matches", "experiments/automata.py:Matcher", "experiments/automata.py:levenshtein_automaton"]}
{"id": "C255", "title": "levenshtein_lookup with any cost of transposition", "statement": "On a character trie reached by any calls and for any non-negative costs, levenshtein_lookup yields, each once and in the order of keys(), exactly the stored non-empty keys within distance of the word all of whose non-empty beginnings are within distance of some beginning of the word. This also says which keys are missed when transpositions are cheaper than every other operation (C63 covers the other case).", "quantifier": "all call histories, all non-empty words, all non-negative bounds and costs", "why_tests_cant": "characterises a pruned search for all tries and costs; which keys are missed depends on all beginnings of all keys", "anchors": ["experiments/find_replace_trie.py:Trie.levenshtein_lookup"]}
