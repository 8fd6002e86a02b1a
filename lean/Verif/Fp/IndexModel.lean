import Verif.Index.History
import Verif.Fp.Model

/-!
# `WordList` (`ApproxWordListV6`) in rounded arithmetic

The same code as in `Verif.Index.Model`, nmd/nmd_index.py:416-634, with every arithmetic operation on
floats rounded. The attributes are those of `Verif.WL`; the stored positions are floats now.
Operations on integers (`min`, lengths, `num_grams`, the unnormalised counts of the first pass) are
exact in Python and exact here.

`mean` is modelled for `dim = 1` (`mean1F`): `x ** 1` and `x ** 1.0` are exact. `sum` is a part of
`R`: it adds from left to right up to Python 3.11 and compensates from 3.12 on (`Verif.Fp.Sum`).
Lemmas about the pruning take any monotone aggregate.
-/

namespace Verif
namespace Fp

variable (R : FOps)

/-- Locations of the n-grams of an added word, nmd/nmd_index.py:512-517. -/
def addLocationsF (gs : List (List Char)) : Dict (List Char) (List ℚ) :=
  if gs.length > 1 then
    gs.zipIdx.foldl (fun d p => Dict.appendTo d p.1 (R.fl ((p.2 : ℚ) / ((gs.length : ℚ) - 1)))) []
  else
    match gs with
    | [] => []
    | g :: _ => Dict.appendTo [] g 0

/-- The loop over `n`, nmd/nmd_index.py:509-522. -/
def addGramsF (st : WL) (w : List Char) (idx : ℕ) : WL :=
  st.nList.foldl (fun st n => (addLocationsF R (getNGrams w n)).foldl (WL.addItem idx) st) st

/-- `add_word(word)`, nmd/nmd_index.py:487-524. -/
def addWordF (cf : List Char → List Char) (st : WL) (word : PyVal) : WL × Except PyErr Unit :=
  match word with
  | .str w =>
    if w.length = 0 then (st, .error .valueError)
    else
      let w := st.fold cf w
      if Dict.has st.wordIndices w then (st, .ok ())
      else if '\x02' ∈ w ∨ '\x03' ∈ w then (st, .error .assertionError)
      else
        match st.resolve cf w with
        | (st', .error e) => (st', .error e)
        | (st', .ok idx) => (addGramsF R (st'.addFilter w idx) w idx, .ok ())
  | _ => (st, .error .typeError)

/-- An in-place update `v[k] = f(v[k])` of the row of `word_index`, creating a zero row if missing,
nmd/nmd_index.py:551-557 and 587-589. -/
def bumpWith (N : ℕ) (ms : Dict ℕ (List ℚ)) (oi k : ℕ) (f : ℚ → ℚ) : Dict ℕ (List ℚ) :=
  let v := (Dict.get? ms oi).getD (List.replicate N 0)
  Dict.set ms oi (v.set k (f (v.getD k 0)))

/-- Innermost body of the counting loop, nmd/nmd_index.py:548-557: a rounded division and a rounded
addition when normalising, integers otherwise. -/
def minStepF (st : WL) (q : List Char) (normalize : Bool) (possible : List ℕ)
    (n : ℤ) (k : ℕ) (c : ℕ) (ms : Dict ℕ (List ℚ)) (e : ℕ × ℕ) :
    Except PyErr (Dict ℕ (List ℚ)) :=
  if st.filterN ≠ 0 ∧ e.1 ∉ possible then .ok ms
  else if normalize then do
    let row ← pyGet st.wordNumGrams e.1
    let wn ← pyGet row k
    let den : ℤ := numGrams q.length n + wn
    if den = 0 then .error .zeroDivisionError
    else .ok (bumpWith st.nList.length ms e.1 k
      (fun s => R.fl (s + R.fl (((min c e.2 : ℕ) : ℚ) / den))))
  else .ok (bumpWith st.nList.length ms e.1 k (fun s => s + ((min c e.2 : ℕ) : ℚ)))

/-- "count matching n-grams", nmd/nmd_index.py:544-557. -/
def minScoresF (st : WL) (q : List Char) (normalize : Bool) : Except PyErr (Dict ℕ (List ℚ)) :=
  st.nList.zipIdx.foldlM (fun ms nk =>
    (counter (getNGrams q nk.1)).foldlM (fun ms gc =>
      ((Dict.get? st.ngramCounts gc.1).getD []).foldlM
        (minStepF R st q normalize (st.filterCandidates q) nk.1 nk.2 gc.2) ms) ms) []

/-- Words whose best possible score reaches the threshold, nmd/nmd_index.py:570-573. -/
def survivorsF {S : Type} [LinearOrder S] (agg : List ℚ → S) (ms : Dict ℕ (List ℚ)) (t : S) :
    List ℕ :=
  (ms.filter (fun p => t ≤ agg (p.2.map (fun x => R.fl (x * 2))))).map Prod.fst

/-- Locations of the n-grams of the query, nmd/nmd_index.py:578-581. -/
def queryLocationsF (gs : List (List Char)) : Except PyErr (Dict (List Char) (List ℚ)) :=
  gs.zipIdx.foldlM (fun d p =>
    if (gs.length : ℤ) - 1 = 0 then .error .zeroDivisionError
    else .ok (Dict.appendTo d p.1 (R.fl ((p.2 : ℚ) / ((gs.length : ℚ) - 1))))) []

/-- Innermost body of the matching loop, nmd/nmd_index.py:584-589. -/
def matchStepF (st : WL) (possible : List ℕ) (k : ℕ) (locations : List ℚ)
    (ms : Dict ℕ (List ℚ)) (e : ℕ × List ℚ) : Dict ℕ (List ℚ) :=
  if e.1 ∉ possible then ms
  else
    bumpWith st.nList.length
      (bumpWith st.nList.length ms e.1 k
        (fun s => R.fl (s + ((locations.length : ℚ) + e.2.length))))
      e.1 k (fun s => R.fl (s - emdF R locations e.2))

/-- "count matching n-grams" (second pass), nmd/nmd_index.py:575-589. -/
def matchScoresF (st : WL) (q : List Char) (possible : List ℕ) : Except PyErr (Dict ℕ (List ℚ)) :=
  st.nList.zipIdx.foldlM (fun ms nk => do
    let locs ← queryLocationsF R (getNGrams q nk.1)
    return locs.foldl (fun ms gl =>
      ((Dict.get? st.ngramPositions gl.1).getD []).foldl
        (matchStepF R st possible nk.2 gl.2) ms) ms) []

/-- One component of the normalised row, nmd/nmd_index.py:597-598. -/
def normCellF (q : List Char) (otherLen : ℕ) (row : List ℚ) (nk : ℤ × ℕ) : Except PyErr ℚ := do
  let x ← pyGet row nk.2
  let den : ℤ := numGrams q.length nk.1 + numGrams otherLen nk.1
  if den = 0 then throw PyErr.zeroDivisionError else return R.fl (x / (den : ℚ))

/-- "normalize scores", nmd/nmd_index.py:591-601, for one word. -/
def normalizeRowF (st : WL) (q : List Char) (normalize : Bool) (p : ℕ × List ℚ) :
    Except PyErr (ℕ × List ℚ) := do
  let otherLen ← pyGet st.wordLens p.1
  if normalize then
    let norm ← st.nList.zipIdx.mapM (normCellF R q otherLen p.2)
    return (p.1, norm)
  else return p

/-- `__lookup_similarity(word, dim, top_k, normalize)`, nmd/nmd_index.py:526-604. -/
def lookupSimilarityF {S : Type} [LinearOrder S] (agg : List ℚ → S) (st : WL) (q : List Char)
    (topK : ℕ) (normalize : Bool) : Except PyErr (List (ℕ × S)) := do
  if ¬ topK ≥ 1 then throw PyErr.assertionError
  let ms ← minScoresF R st q normalize
  if ms.length = 0 then return []
  let t ← minAcceptable (ms.map (fun p => agg p.2)) topK
  let possible := survivorsF R agg ms t
  let matches' ← matchScoresF R st q possible
  let normed ← matches'.mapM (normalizeRowF R st q normalize)
  return normed.map (fun p => (p.1, agg p.2))

/-- One iteration of the re-scoring loop of V6, nmd/nmd_index.py:630-632. -/
def rescoreF {S : Type} (st : WL) (q : List Char) (normalize : Bool) (p : ℕ × S) :
    Except PyErr (ℕ × (S ×ₗ ℚ)) := do
  let w ← pyGet st.wordList p.1
  let s ← nmdF R (.str q) (.str w) (.int 2) true normalize
  return (p.1, toLex (p.2, s))

/-- `ApproxWordListV6.lookup(word, top_k, dim, normalize)`, nmd/nmd_index.py:606-634. -/
def lookupF {S : Type} [LinearOrder S] (agg : List ℚ → S) (cf : List Char → List Char) (st : WL)
    (word topK : PyVal) (normalize : Bool) : Except PyErr (List (List Char × (S ×ₗ ℚ))) := do
  let (q, k) ← st.checkLookup cf word topK
  let scored ← lookupSimilarityF R agg st q k normalize
  let items ← (mostCommon scored (k * 2)).mapM (rescoreF R st q normalize)
  (mostCommon items k).mapM (fun p => do return (← pyGet st.wordList p.1, p.2))

/-- `sum(v)`, nmd/nmd_index.py:37, as the version of Python computes it. -/
def sumF (v : List ℚ) : ℚ := R.sum v

/-- `mean(vec, 1)`, nmd/nmd_index.py:36-37 with `dim = 1`. -/
def mean1F (v : List ℚ) : ℚ := R.fl (sumF R v / v.length)

/-- State after a call; `lookup` reads only. -/
def stepF (cf : List Char → List Char) (st : WL) : WLOp → WL
  | .add v => (addWordF R cf st v).1
  | .lookup _ _ _ => st

/-- State after a sequence of calls, exceptions being caught by the caller. -/
def runF (cf : List Char → List Char) (st : WL) (ops : List WLOp) : WL :=
  ops.foldl (stepF R cf) st

/-- States reachable from the constructor, nmd/nmd_index.py:416-451, by `add_word` and `lookup`. -/
def ReachableF (cf : List Char → List Char) (st : WL) : Prop :=
  ∃ n cs fn st₀ ops, WL.new n cs fn = .ok st₀ ∧ st = runF R cf st₀ ops

end Fp
end Verif
