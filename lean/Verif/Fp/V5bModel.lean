import Verif.Index.V5bModel
import Verif.Fp.IndexModel

/-!
# `ApproxWordListV5b` in rounded arithmetic

The same code as in `Verif.Index.V5bModel`, experiments/gemini_optimized_v5.py, with every arithmetic
operation on floats rounded. Unlike `ApproxWordListV5` and `V6` the class divides the contribution of
each n-gram before adding it up, and its unnormalised lower bounds are floats too (line 356).
-/

namespace Verif
namespace Fp

variable (R : FOps)

/-- Locations of the n-grams of a word, experiments/gemini_optimized_v5.py:225-228 and 296-301. -/
def v5bLocationsF (gs : List (List Char)) : Dict (List Char) (List ℚ) :=
  gs.zipIdx.foldl (fun d p =>
    Dict.appendTo d p.1 (R.fl ((p.2 : ℚ) / max 1 ((gs.length : ℚ) - 1)))) []

/-- The loop over `n`, experiments/gemini_optimized_v5.py:219-235. -/
def v5bAddGramsF (st : WL) (w : List Char) (idx : ℕ) : WL :=
  st.nList.foldl (fun st n =>
    if (getNGrams w n).length = 0 then st
    else (v5bLocationsF R (getNGrams w n)).foldl (WL.addItem idx) st) st

/-- `add_word(word)`, experiments/gemini_optimized_v5.py:177-234. -/
def v5bAddWordF (cf : List Char → List Char) (st : WL) (word : PyVal) : WL × Except PyErr Unit :=
  match word with
  | .str w =>
    if w.length = 0 then (st, .error .valueError)
    else
      let w := st.fold cf w
      if w.length = 0 then (st, .error .valueError)
      else if '\x02' ∈ w ∨ '\x03' ∈ w then (st, .error .valueError)
      else if Dict.has st.wordIndices w then (st, .ok ())
      else
        match st.v5bResolve w with
        | (st', none) => (st', .error .typeError)
        | (st', some idx) => (v5bAddGramsF R (st'.addFilter w idx) w idx, .ok ())
  | _ => (st, .error .valueError)

/-- Innermost body of the counting loop, experiments/gemini_optimized_v5.py:344-360. -/
def v5bMinStepF (st : WL) (q : List Char) (normalize : Bool) (cand : List ℕ)
    (n : ℤ) (k : ℕ) (c : ℕ) (ms : Dict ℕ (List ℚ)) (e : ℕ × ℕ) :
    Except PyErr (Dict ℕ (List ℚ)) :=
  if e.1 ∉ cand then .ok ms
  else do
    let row ← pyGet st.wordNumGrams e.1
    let wn ← pyGet row k
    let den : ℤ := numGrams q.length n + wn
    if den > 0 then
      return bumpWith st.nList.length ms e.1 k (fun s => R.fl (s +
        (if normalize then R.fl (((min c e.2 : ℕ) : ℚ) / den) else R.fl ((min c e.2 : ℕ) : ℚ))))
    else return ms

/-- Lower bounds, experiments/gemini_optimized_v5.py:335-360. -/
def v5bMinScoresF (st : WL) (q : List Char) (normalize : Bool) (cand : List ℕ) :
    Except PyErr (Dict ℕ (List ℚ)) :=
  st.nList.zipIdx.foldlM (fun ms nk =>
    if numGrams q.length nk.1 = 0 then .ok ms
    else (counter (getNGrams q nk.1)).foldlM (fun ms gc =>
      ((Dict.get? st.ngramCounts gc.1).getD []).foldlM
        (v5bMinStepF R st q normalize cand nk.1 nk.2 gc.2) ms) ms) []

/-- Innermost body of the scoring loop, experiments/gemini_optimized_v5.py:412-434:
`float(len + len) - emd_1d_dp(…)`, divided if `normalize`, then added. -/
def v5bMatchStepF (st : WL) (q : List Char) (normalize : Bool) (finalists : List ℕ) (n : ℤ)
    (k : ℕ) (locations : List ℚ) (ms : Dict ℕ (List ℚ)) (e : ℕ × List ℚ) :
    Except PyErr (Dict ℕ (List ℚ)) :=
  if e.1 ∉ finalists then .ok ms
  else
    let sim : ℚ := R.fl (R.fl ((locations.length + e.2.length : ℕ) : ℚ) - emdF R locations e.2)
    if normalize then do
      let row ← pyGet st.wordNumGrams e.1
      let wn ← pyGet row k
      let den : ℤ := numGrams q.length n + wn
      if den > 0 then return bumpWith st.nList.length ms e.1 k (fun s => R.fl (s + R.fl (sim / den)))
      else return ms
    else return bumpWith st.nList.length ms e.1 k (fun s => R.fl (s + sim))

/-- Scores of the finalists, experiments/gemini_optimized_v5.py:404-434. -/
def v5bMatchScoresF (st : WL) (q : List Char) (normalize : Bool) (finalists : List ℕ) :
    Except PyErr (Dict ℕ (List ℚ)) :=
  st.nList.zipIdx.foldlM (fun ms nk =>
    if numGrams q.length nk.1 = 0 then .ok ms
    else (v5bLocationsF R (getNGrams q nk.1)).foldlM (fun ms gl =>
      ((Dict.get? st.ngramPositions gl.1).getD []).foldlM
        (v5bMatchStepF R st q normalize finalists nk.1 nk.2 gl.2) ms) ms) []

/-- `__lookup_similarity(normalized_query_word, dim, top_k, normalize)`,
experiments/gemini_optimized_v5.py:237-438. -/
def v5bLookupSimilarityF {S : Type} [LinearOrder S] (agg : List ℚ → S) (st : WL) (q : List Char)
    (topK : ℕ) (normalize : Bool) : Except PyErr (List (ℕ × S)) := do
  if q.length = 0 then return []
  match st.v5bCandidates q with
  | none => return []
  | some cand =>
    let ms ← v5bMinScoresF R st q normalize cand
    if ms.isEmpty then return []
    let actualK := min topK ms.length
    if actualK = 0 then return []
    let t ← v5bThreshold (ms.map (fun p => agg p.2)) actualK
    let finalists := survivorsF R agg ms t
    if finalists.isEmpty then return []
    let sc ← v5bMatchScoresF R st q normalize finalists
    return sc.map (fun p => (p.1, agg p.2))

/-- `lookup(word, top_k, dim, normalize)`, experiments/gemini_optimized_v5.py:440-491. -/
def v5bLookupF {S : Type} [LinearOrder S] (agg : List ℚ → S) (cf : List Char → List Char)
    (st : WL) (word topK : PyVal) (normalize : Bool) : Except PyErr (List (List Char × S)) :=
  match word with
  | .str w =>
    if w.length = 0 then .error .valueError
    else
      match topK with
      | .int k =>
        if k ≤ 0 then .error .valueError
        else
          let q := st.fold cf w
          if q.length = 0 then .ok []
          else if '\x02' ∈ q ∨ '\x03' ∈ q then .ok []
          else do
            let scored ← v5bLookupSimilarityF R agg st q k.toNat normalize
            (mostCommon scored k.toNat).mapM (fun p => do return (← pyGet st.wordList p.1, p.2))
      | _ => .error .valueError
  | _ => .error .valueError

/-- State after a sequence of `add_word` calls (experiments/gemini_optimized_v5.py:177-234),
exceptions being caught by the caller. -/
def v5bRunF (cf : List Char → List Char) (st : WL) (vs : List PyVal) : WL :=
  vs.foldl (fun st v => (v5bAddWordF R cf st v).1) st

/-- States reachable from the constructor, experiments/gemini_optimized_v5.py:43-110, by
`add_word`. -/
def V5bReachableF (cf : List Char → List Char) (st : WL) : Prop :=
  ∃ n cs fn st₀ vs, WL.v5bNew n cs fn = .ok st₀ ∧ st = v5bRunF R cf st₀ vs

end Fp
end Verif
