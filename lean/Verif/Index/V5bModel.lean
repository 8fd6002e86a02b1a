import Verif.Index.Model
import Verif.Py.Index

/-!
# Model of `experiments/gemini_optimized_v5.py`: `ApproxWordListV5b`

The class stores the same data as `ApproxWordListV5` under other names (`__word_to_index`,
`__index_to_word`, `__index_to_word_length`, `__index_to_num_grams`, `__ngram_filter_index`,
`__ngram_counts_index`, `__ngram_positions_index`), so the model reuses the state type `WL`;
`filter_n = None` is `filterN = 0`. `get_n_grams`, `num_grams`, `mean` and `emd_1d_dp` are imported
from `nmd` (lines 13-16) and modelled by `getNGrams`, `numGrams`, `agg` and `emd`. A `BitMap` is a
list of which only membership is observed.
-/

namespace Verif

/-- Validation of `n`, experiments/gemini_optimized_v5.py:61-74. The `ValueError` raised at line 69
is caught at line 71 and turned into a `TypeError`. (Iterables of non-ints, which raise `TypeError`
as well, are not represented.) -/
def v5bNList : NArg → Except PyErr (List ℤ)
  | .int n => if n ≤ 0 then .error .valueError else .ok [n]
  | .iter ns =>
    let l := (ns.dedup).insertionSort (· ≤ ·)
    if l.isEmpty || l.any (fun n => decide (n ≤ 0)) then .error .typeError else .ok l
  | .other => .error .typeError

/-- Validation of `filter_n`, experiments/gemini_optimized_v5.py:84-87; `none` is Python's `None`. -/
def v5bFilterN : Option PyVal → Except PyErr ℤ
  | none => .ok 0
  | some (.int k) => if k ≤ 0 then .error .valueError else .ok k
  | some _ => .error .valueError

/-- `ApproxWordListV5b(n, case_sensitive, filter_n)`, experiments/gemini_optimized_v5.py:43-110.
`caseSensitive = none` stands for an argument that is not a `bool`. -/
def WL.v5bNew (n : NArg) (caseSensitive : Option Bool) (filterN : Option PyVal) :
    Except PyErr WL := do
  let nList ← v5bNList n
  match caseSensitive with
  | none => throw PyErr.typeError
  | some cs =>
    let fn ← v5bFilterN filterN
    return { nList, caseInsensitive := !cs, filterN := fn, wordIndices := [], wordList := [],
             wordLens := [], wordNumGrams := [], ngramFilter := [], ngramCounts := [],
             ngramPositions := [] }

/-- `_resolve_word_index(normalized_word, auto_add=True)`,
experiments/gemini_optimized_v5.py:142-174 (the only way it is called); `none` is Python's `None`. -/
def WL.v5bResolve (st : WL) (w : List Char) : WL × Option ℕ :=
  if w.length = 0 then (st, none)
  else
    match Dict.get? st.wordIndices w with
    | some i => (st, some i)
    | none =>
      let idx := st.wordList.length
      ({ st with
        wordIndices := Dict.set st.wordIndices w idx
        wordList := st.wordList ++ [w]
        wordLens := st.wordLens ++ [w.length]
        wordNumGrams := st.wordNumGrams ++ [st.nList.map (numGrams w.length)] }, some idx)

/-- Locations of the n-grams of a word, experiments/gemini_optimized_v5.py:225-228 and 296-301:
the divisor is `max(1, num_n_grams - 1)`. -/
def v5bLocations (gs : List (List Char)) : Dict (List Char) (List ℚ) :=
  gs.zipIdx.foldl (fun d p =>
    Dict.appendTo d p.1 ((p.2 : ℚ) / max 1 ((gs.length : ℚ) - 1))) []

/-- The loop over `n`, experiments/gemini_optimized_v5.py:219-235. -/
def WL.v5bAddGrams (st : WL) (w : List Char) (idx : ℕ) : WL :=
  st.nList.foldl (fun st n =>
    if (getNGrams w n).length = 0 then st
    else (v5bLocations (getNGrams w n)).foldl (WL.addItem idx) st) st

/-- `add_word(word)`, experiments/gemini_optimized_v5.py:177-234. The filter is filled as in
`WL.addFilter` (lines 211-216). -/
def WL.v5bAddWord (cf : List Char → List Char) (st : WL) (word : PyVal) : WL × Except PyErr Unit :=
  match word with
  | .str w =>
    if w.length = 0 then (st, .error .valueError)
    else
      let w := st.fold cf w
      if w.length = 0 then (st, .error .valueError)
      else if '\x02' ∈ w ∨ '\x03' ∈ w then (st, .error .valueError)
      else if Dict.has st.wordIndices w then (st, .ok ())
      else
        match st.v5bResolve w with
        | (st', none) => (st', .error .typeError)
        | (st', some idx) => ((st'.addFilter w idx).v5bAddGrams w idx, .ok ())
  | _ => (st, .error .valueError)

/-- Initial filtering, experiments/gemini_optimized_v5.py:269-274 and 305-324. `none` means that
`__lookup_similarity` returns an empty `Counter` at this point. -/
def WL.v5bCandidates (st : WL) (q : List Char) : Option (List ℕ) :=
  if st.filterN ≠ 0 then
    let fg := (getNGrams q st.filterN).dedup
    if fg.isEmpty then none
    else
      let c := fg.flatMap (fun g => (Dict.get? st.ngramFilter g).getD [])
      if c.isEmpty then none else some c
  else if st.wordList.isEmpty then none
  else some (List.range st.wordList.length)

/-- Innermost body of the counting loop, experiments/gemini_optimized_v5.py:344-360. -/
def WL.v5bMinStep (st : WL) (q : List Char) (normalize : Bool) (cand : List ℕ)
    (n : ℤ) (k : ℕ) (c : ℕ) (ms : Dict ℕ (List ℚ)) (e : ℕ × ℕ) :
    Except PyErr (Dict ℕ (List ℚ)) :=
  if e.1 ∉ cand then .ok ms
  else do
    let row ← pyGet st.wordNumGrams e.1
    let wn ← pyGet row k
    let den : ℤ := numGrams q.length n + wn
    if den > 0 then
      return bump st.nList.length ms e.1 k
        (if normalize then ((min c e.2 : ℕ) : ℚ) / den else ((min c e.2 : ℕ) : ℚ))
    else return ms

/-- Lower bounds, experiments/gemini_optimized_v5.py:335-360. The dictionaries `query_counters` and
`query_num_grams_tuple` (lines 276-302) are read back for the same `n`, so their entries are
computed in place; `n` is skipped if `num_grams` is 0 (line 288). -/
def WL.v5bMinScores (st : WL) (q : List Char) (normalize : Bool) (cand : List ℕ) :
    Except PyErr (Dict ℕ (List ℚ)) :=
  st.nList.zipIdx.foldlM (fun ms nk =>
    if numGrams q.length nk.1 = 0 then .ok ms
    else (counter (getNGrams q nk.1)).foldlM (fun ms gc =>
      ((Dict.get? st.ngramCounts gc.1).getD []).foldlM
        (st.v5bMinStep q normalize cand nk.1 nk.2 gc.2) ms) ms) []

/-- Threshold, experiments/gemini_optimized_v5.py:373-380:
`heapq.nlargest(actual_k, values)[-1]`. `nlargest` is documented to equal
`sorted(values, reverse=True)[:actual_k]`. -/
def v5bThreshold {S : Type} [LinearOrder S] (scores : List S) (actualK : ℕ) : Except PyErr S :=
  pyGetI ((sortDesc id scores).take actualK) (-1)

/-- Innermost body of the scoring loop, experiments/gemini_optimized_v5.py:412-434. -/
def WL.v5bMatchStep (st : WL) (q : List Char) (normalize : Bool) (finalists : List ℕ) (n : ℤ)
    (k : ℕ) (locations : List ℚ) (ms : Dict ℕ (List ℚ)) (e : ℕ × List ℚ) :
    Except PyErr (Dict ℕ (List ℚ)) :=
  if e.1 ∉ finalists then .ok ms
  else
    let sim : ℚ := ((locations.length + e.2.length : ℕ) : ℚ) - emd locations e.2
    if normalize then do
      let row ← pyGet st.wordNumGrams e.1
      let wn ← pyGet row k
      let den : ℤ := numGrams q.length n + wn
      if den > 0 then return bump st.nList.length ms e.1 k (sim / den) else return ms
    else return bump st.nList.length ms e.1 k sim

/-- Scores of the finalists, experiments/gemini_optimized_v5.py:404-434. -/
def WL.v5bMatchScores (st : WL) (q : List Char) (normalize : Bool) (finalists : List ℕ) :
    Except PyErr (Dict ℕ (List ℚ)) :=
  st.nList.zipIdx.foldlM (fun ms nk =>
    if numGrams q.length nk.1 = 0 then .ok ms
    else (v5bLocations (getNGrams q nk.1)).foldlM (fun ms gl =>
      ((Dict.get? st.ngramPositions gl.1).getD []).foldlM
        (st.v5bMatchStep q normalize finalists nk.1 nk.2 gl.2) ms) ms) []

/-- `__lookup_similarity(normalized_query_word, dim, top_k, normalize)`,
experiments/gemini_optimized_v5.py:237-438. -/
def WL.v5bLookupSimilarity {S : Type} [LinearOrder S] (agg : List ℚ → S) (st : WL) (q : List Char)
    (topK : ℕ) (normalize : Bool) : Except PyErr (List (ℕ × S)) := do
  if q.length = 0 then return []
  match st.v5bCandidates q with
  | none => return []
  | some cand =>
    let ms ← st.v5bMinScores q normalize cand
    if ms.isEmpty then return []
    let actualK := min topK ms.length
    if actualK = 0 then return []
    let t ← v5bThreshold (ms.map (fun p => agg p.2)) actualK
    let finalists := survivors agg ms t
    if finalists.isEmpty then return []
    let sc ← st.v5bMatchScores q normalize finalists
    return sc.map (fun p => (p.1, agg p.2))

/-- `lookup(word, top_k, dim, normalize)`, experiments/gemini_optimized_v5.py:440-491. -/
def WL.v5bLookup {S : Type} [LinearOrder S] (agg : List ℚ → S) (cf : List Char → List Char)
    (st : WL) (word topK : PyVal) (normalize : Bool) : Except PyErr (List (List Char × S)) :=
  match word with
  | .str w =>
    if w.length = 0 then .error .valueError
    else
      match topK with
      | .int k =>
        if k ≤ 0 then .error .valueError
        else
          let q := st.fold cf w
          if q.length = 0 then .ok []
          else if '\x02' ∈ q ∨ '\x03' ∈ q then .ok []
          else do
            let scored ← st.v5bLookupSimilarity agg q k.toNat normalize
            (mostCommon scored k.toNat).mapM (fun p => do return (← pyGet st.wordList p.1, p.2))
      | _ => .error .valueError
  | _ => .error .valueError

/-- `__len__`, experiments/gemini_optimized_v5.py:493-495. -/
def WL.v5bLen (st : WL) : ℕ := st.wordList.length

/-- `__contains__(word)`, experiments/gemini_optimized_v5.py:497-502. -/
def WL.v5bContains (cf : List Char → List Char) (st : WL) (word : PyVal) : Bool :=
  match word with
  | .str w => Dict.has st.wordIndices (st.fold cf w)
  | _ => false

/-- `vocabulary`, experiments/gemini_optimized_v5.py:114-116. -/
def WL.v5bVocabulary (st : WL) : List (List Char) := st.wordList.insertionSort (· ≤ ·)

end Verif
