import Verif.Core.Model
import Verif.Py.Sort
import Mathlib.Data.Prod.Lex
import Mathlib.Data.List.Lex
import Mathlib.Data.Char
import Mathlib.Algebra.Ring.Defs

/-!
# Model of `nmd/nmd_index.py`: `ApproxWordListV6` (= `WordList`) and `ApproxWordListV5`

The two classes share the same state and the same `add_word`/`__lookup_similarity`
(nmd/nmd_index.py:189-376 and 416-604 are textually identical up to a comment); they differ in
`lookup`.

* `cf : List Char → List Char` stands for `str.casefold`.
* `agg : List ℚ → S` stands for `fun v => mean(v, dim)` (nmd/nmd_index.py:36-37).
* Python sets are lists; only membership is ever observed.
-/

namespace Verif

/-- `get_n_grams(word, n)`, nmd/nmd_index.py:15-25. -/
def getNGrams (w : List Char) (n : ℤ) : List (List Char) :=
  if n > 1 then
    (List.range ((pad w).length - n + 1).toNat).map
      (fun idx => pySlice (pad w) idx (idx + n.toNat))
  else w.map (fun c => [c])

/-- `num_grams(len_word, n)`, nmd/nmd_index.py:28-33. -/
def numGrams (lenWord : ℕ) (n : ℤ) : ℤ :=
  if n > 1 then lenWord + 2 + 1 - n else lenWord + 2

/-- `Counter(xs)` for a list of hashable items: counts in order of first occurrence
(used at nmd/nmd_index.py:547). -/
def counter {κ : Type} [DecidableEq κ] (xs : List κ) : Dict κ ℕ :=
  xs.foldl (fun d x => Dict.set d x ((Dict.get? d x).getD 0 + 1)) []

/-- Attributes of an `ApproxWordListV6` (V5) object, nmd/nmd_index.py:416-451. -/
structure WL where
  nList : List ℤ
  caseInsensitive : Bool
  filterN : ℤ
  wordIndices : Dict (List Char) ℕ
  wordList : List (List Char)
  wordLens : List ℕ
  wordNumGrams : List (List ℤ)
  ngramFilter : Dict (List Char) (List ℕ)
  ngramCounts : Dict (List Char) (List (ℕ × ℕ))
  ngramPositions : Dict (List Char) (List (ℕ × List ℚ))
deriving DecidableEq

/-- The constructor argument `n`: an int, an iterable of ints, or something else. -/
inductive NArg where
  | int (n : ℤ)
  | iter (ns : List ℤ)
  | other

/-- Validation of `n`, nmd/nmd_index.py:423-430: `sorted(set(n))`, all positive. (Iterables of
non-ints, which raise as well, are not represented.) -/
def mkNList : NArg → Except PyErr (List ℤ)
  | .int n => if n > 0 then .ok [n] else .error .assertionError
  | .iter ns =>
    let l := (ns.dedup).insertionSort (· ≤ ·)
    if l.all (fun n => decide (n > 0)) then .ok l else .error .assertionError
  | .other => .error .typeError

/-- `ApproxWordListV6(n, case_sensitive, filter_n)`, nmd/nmd_index.py:416-451. -/
def WL.new (n : NArg) (caseSensitive : Bool) (filterN : ℤ) : Except PyErr WL := do
  let nList ← mkNList n
  return { nList, caseInsensitive := !caseSensitive, filterN, wordIndices := [], wordList := [],
           wordLens := [], wordNumGrams := [], ngramFilter := [], ngramCounts := [],
           ngramPositions := [] }

/-- `vocabulary`, nmd/nmd_index.py:453-455. Strings compare code point by code point. -/
def WL.vocabulary (st : WL) : List (List Char) := st.wordList.insertionSort (· ≤ ·)

/-- `word.casefold()` if the list is case-insensitive, nmd/nmd_index.py:464-465, 493-494, 623-624. -/
def WL.fold (cf : List Char → List Char) (st : WL) (w : List Char) : List Char :=
  if st.caseInsensitive then cf w else w

/-- `_resolve_word_index(word, auto_add=True)`, nmd/nmd_index.py:457-485 (the only way it is
called). Returns the new state together with the index or the exception, since Python keeps
mutations made before an exception. -/
def WL.resolve (cf : List Char → List Char) (st : WL) (w : List Char) : WL × Except PyErr ℕ :=
  if w.length = 0 then (st, .error .valueError)
  else
    let w := st.fold cf w
    match Dict.get? st.wordIndices w with
    | some i => (st, .ok i)
    | none =>
      let idx := st.wordList.length
      let st' := { st with
        wordIndices := Dict.set st.wordIndices w idx
        wordList := st.wordList ++ [w]
        wordLens := st.wordLens ++ [w.length]
        wordNumGrams := st.wordNumGrams ++ [st.nList.map (numGrams w.length)] }
      if st'.wordIndices.length = st'.wordList.length ∧ st'.wordList.length = idx + 1 ∧
          st'.wordList[idx]? = some w ∧ st'.wordLens[idx]? = some w.length then (st', .ok idx)
      else (st', .error .assertionError)

/-- `s.setdefault(k, set()).add(i)`, nmd/nmd_index.py:507. -/
def addToSet {κ : Type} [DecidableEq κ] (d : Dict κ (List ℕ)) (k : κ) (i : ℕ) : Dict κ (List ℕ) :=
  let s := (Dict.get? d k).getD []
  Dict.set d k (if i ∈ s then s else s ++ [i])

/-- Filling the n-gram filter, nmd/nmd_index.py:505-507. -/
def WL.addFilter (st : WL) (w : List Char) (idx : ℕ) : WL :=
  if st.filterN ≠ 0 then
    { st with ngramFilter :=
        ((getNGrams w st.filterN).dedup).foldl (fun d g => addToSet d g idx) st.ngramFilter }
  else st

/-- Locations of the n-grams of an added word, nmd/nmd_index.py:512-517. -/
def addLocations (gs : List (List Char)) : Dict (List Char) (List ℚ) :=
  if gs.length > 1 then
    gs.zipIdx.foldl (fun d p => Dict.appendTo d p.1 ((p.2 : ℚ) / ((gs.length : ℚ) - 1))) []
  else
    match gs with
    | [] => []
    | g :: _ => Dict.appendTo [] g 0

/-- Recording counts and positions, nmd/nmd_index.py:519-522. -/
def WL.addItem (idx : ℕ) (st : WL) (item : List Char × List ℚ) : WL :=
  { st with
    ngramCounts := Dict.appendTo st.ngramCounts item.1 (idx, item.2.length)
    ngramPositions := Dict.appendTo st.ngramPositions item.1 (idx, item.2) }

/-- The loop over `n`, nmd/nmd_index.py:509-522. (`set(self.__n_list)` may iterate in another
order; the keys written for different `n` are different strings, see `getNGrams_length`.) -/
def WL.addGrams (st : WL) (w : List Char) (idx : ℕ) : WL :=
  st.nList.foldl (fun st n => (addLocations (getNGrams w n)).foldl (WL.addItem idx) st) st

/-- `add_word(word)`, nmd/nmd_index.py:487-524. -/
def WL.addWord (cf : List Char → List Char) (st : WL) (word : PyVal) : WL × Except PyErr Unit :=
  match word with
  | .str w =>
    if w.length = 0 then (st, .error .valueError)
    else
      let w := st.fold cf w
      if Dict.has st.wordIndices w then (st, .ok ())
      else if '\x02' ∈ w ∨ '\x03' ∈ w then (st, .error .assertionError)
      else
        match st.resolve cf w with
        | (st', .error e) => (st', .error e)
        | (st', .ok idx) => ((st'.addFilter w idx).addGrams w idx, .ok ())
  | _ => (st, .error .typeError)

/-- `v[k] += x` on the row of `word_index`, creating a zero row if missing,
nmd/nmd_index.py:551-557 and 587-589. -/
def bump (N : ℕ) (ms : Dict ℕ (List ℚ)) (oi k : ℕ) (x : ℚ) : Dict ℕ (List ℚ) :=
  let v := (Dict.get? ms oi).getD (List.replicate N 0)
  Dict.set ms oi (v.set k (v.getD k 0 + x))

/-- Candidate word indices from the n-gram filter, nmd/nmd_index.py:539-542. -/
def WL.filterCandidates (st : WL) (q : List Char) : List ℕ :=
  if st.filterN ≠ 0 then
    ((getNGrams q st.filterN).dedup).flatMap (fun g => (Dict.get? st.ngramFilter g).getD [])
  else []

/-- Innermost body of the counting loop, nmd/nmd_index.py:548-557. -/
def WL.minStep (st : WL) (q : List Char) (normalize : Bool) (possible : List ℕ)
    (n : ℤ) (k : ℕ) (c : ℕ) (ms : Dict ℕ (List ℚ)) (e : ℕ × ℕ) :
    Except PyErr (Dict ℕ (List ℚ)) :=
  if st.filterN ≠ 0 ∧ e.1 ∉ possible then .ok ms
  else if normalize then do
    let row ← pyGet st.wordNumGrams e.1
    let wn ← pyGet row k
    let den : ℤ := numGrams q.length n + wn
    if den = 0 then .error .zeroDivisionError
    else .ok (bump st.nList.length ms e.1 k (((min c e.2 : ℕ) : ℚ) / den))
  else .ok (bump st.nList.length ms e.1 k ((min c e.2 : ℕ) : ℚ))

/-- "count matching n-grams", nmd/nmd_index.py:544-557. -/
def WL.minScores (st : WL) (q : List Char) (normalize : Bool) :
    Except PyErr (Dict ℕ (List ℚ)) :=
  st.nList.zipIdx.foldlM (fun ms nk =>
    (counter (getNGrams q nk.1)).foldlM (fun ms gc =>
      ((Dict.get? st.ngramCounts gc.1).getD []).foldlM
        (st.minStep q normalize (st.filterCandidates q) nk.1 nk.2 gc.2) ms) ms) []

/-- `_scores.sort(reverse=True); _scores[min(top_k, len(_scores)) - 1]`, nmd/nmd_index.py:564-566. -/
def minAcceptable {S : Type} [LinearOrder S] (scores : List S) (topK : ℕ) : Except PyErr S :=
  pyGet (sortDesc id scores) (min topK scores.length - 1)

/-- Words whose best possible score reaches the threshold, nmd/nmd_index.py:570-573. -/
def survivors {S : Type} [LinearOrder S] (agg : List ℚ → S) (ms : Dict ℕ (List ℚ)) (t : S) :
    List ℕ :=
  (ms.filter (fun p => t ≤ agg (p.2.map (fun x => x * 2)))).map Prod.fst

/-- Locations of the n-grams of the query, nmd/nmd_index.py:578-581: a query with exactly one
n-gram divides by zero. -/
def queryLocations (gs : List (List Char)) : Except PyErr (Dict (List Char) (List ℚ)) :=
  gs.zipIdx.foldlM (fun d p =>
    if (gs.length : ℤ) - 1 = 0 then .error .zeroDivisionError
    else .ok (Dict.appendTo d p.1 ((p.2 : ℚ) / ((gs.length : ℚ) - 1)))) []

/-- Innermost body of the matching loop, nmd/nmd_index.py:584-589. -/
def WL.matchStep (st : WL) (possible : List ℕ) (k : ℕ) (locations : List ℚ)
    (ms : Dict ℕ (List ℚ)) (e : ℕ × List ℚ) : Dict ℕ (List ℚ) :=
  if e.1 ∉ possible then ms
  else
    bump st.nList.length
      (bump st.nList.length ms e.1 k ((locations.length : ℚ) + e.2.length))
      e.1 k (-(emd locations e.2))

/-- "count matching n-grams" (second pass), nmd/nmd_index.py:575-589. -/
def WL.matchScores (st : WL) (q : List Char) (possible : List ℕ) :
    Except PyErr (Dict ℕ (List ℚ)) :=
  st.nList.zipIdx.foldlM (fun ms nk => do
    let locs ← queryLocations (getNGrams q nk.1)
    return locs.foldl (fun ms gl =>
      ((Dict.get? st.ngramPositions gl.1).getD []).foldl
        (st.matchStep possible nk.2 gl.2) ms) ms) []

/-- "normalize scores", nmd/nmd_index.py:591-601, for one word. -/
def WL.normalizeRow (st : WL) (q : List Char) (normalize : Bool) (p : ℕ × List ℚ) :
    Except PyErr (ℕ × List ℚ) := do
  let otherLen ← pyGet st.wordLens p.1
  if normalize then
    let norm ← st.nList.zipIdx.mapM (fun nk => do
      let x ← pyGet p.2 nk.2
      let den : ℤ := numGrams q.length nk.1 + numGrams otherLen nk.1
      if den = 0 then throw PyErr.zeroDivisionError else return x / (den : ℚ))
    return (p.1, norm)
  else return p

/-- `__lookup_similarity(word, dim, top_k, normalize)`, nmd/nmd_index.py:526-604. -/
def WL.lookupSimilarity {S : Type} [LinearOrder S] (agg : List ℚ → S) (st : WL) (q : List Char)
    (topK : ℕ) (normalize : Bool) : Except PyErr (List (ℕ × S)) := do
  if ¬ topK ≥ 1 then throw PyErr.assertionError
  let ms ← st.minScores q normalize
  if ms.length = 0 then return []
  let t ← minAcceptable (ms.map (fun p => agg p.2)) topK
  let possible := survivors agg ms t
  let matches' ← st.matchScores q possible
  let normed ← matches'.mapM (st.normalizeRow q normalize)
  return normed.map (fun p => (p.1, agg p.2))

/-- Argument checks of `lookup`, nmd/nmd_index.py:614-626 (V5: 385-397). -/
def WL.checkLookup (cf : List Char → List Char) (st : WL) (word topK : PyVal) :
    Except PyErr (List Char × ℕ) :=
  match word with
  | .str w =>
    if w.length = 0 then .error .valueError
    else
      match topK with
      | .int k =>
        if k ≤ 0 then .error .valueError
        else
          let w := st.fold cf w
          if '\x02' ∈ w ∨ '\x03' ∈ w then .error .assertionError
          else .ok (w, k.toNat)
      | _ => .error .typeError
  | _ => .error .typeError

/-- One iteration of the re-scoring loop of V6, nmd/nmd_index.py:630-632. -/
def WL.rescore {S : Type} (st : WL) (q : List Char) (normalize : Bool) (p : ℕ × S) :
    Except PyErr (ℕ × (S ×ₗ ℚ)) := do
  let w ← pyGet st.wordList p.1
  let s ← nmd (.str q) (.str w) (.int 2) true normalize
  return (p.1, toLex (p.2, s))

/-- `ApproxWordListV6.lookup(word, top_k, dim, normalize)`, nmd/nmd_index.py:606-634. The keys
of the second `Counter` are distinct, so filling it is building a list. -/
def WL.lookup {S : Type} [LinearOrder S] (agg : List ℚ → S) (cf : List Char → List Char) (st : WL)
    (word topK : PyVal) (normalize : Bool) : Except PyErr (List (List Char × (S ×ₗ ℚ))) := do
  let (q, k) ← st.checkLookup cf word topK
  let scored ← st.lookupSimilarity agg q k normalize
  let items ← (mostCommon scored (k * 2)).mapM (st.rescore q normalize)
  (mostCommon items k).mapM (fun p => do return (← pyGet st.wordList p.1, p.2))

/-- `ApproxWordListV5.lookup(word, top_k, dim, invert, normalize)`, nmd/nmd_index.py:378-412. The
final sort compares the tuples `x[1:]`, i.e. the reported values. -/
def WL.lookupV5 {S : Type} [Ring S] [LinearOrder S] (agg : List ℚ → S)
    (cf : List Char → List Char) (st : WL) (word topK : PyVal) (invert normalize : Bool) :
    Except PyErr (List (List Char × S)) := do
  let (q, k) ← st.checkLookup cf word topK
  let scored ← st.lookupSimilarity agg q k normalize
  let out ← (mostCommon scored (k * 2)).mapM (fun p => do
    return (← pyGet st.wordList p.1,
      if invert then p.2 else (if normalize then 1 else 0) - p.2))
  return sortDesc Prod.snd out

/-- `mean(vec, 1)`, nmd/nmd_index.py:36-37 with `dim = 1`. -/
def mean1 (v : List ℚ) : ℚ := v.sum / v.length

end Verif
