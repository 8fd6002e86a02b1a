import Verif.Index.V3Model
import Verif.Fp.IndexModel

/-!
# `ApproxWordListV3` in rounded arithmetic

The same code as in `Verif.Index.V3Model`, nmd/nmd_index.py:40-186, with every arithmetic operation on
floats rounded. The attributes are those of `Verif.V3`; the stored positions are floats now. The
locations are computed as in the later versions (`addLocationsF`, `queryLocationsF`).
-/

namespace Verif
namespace Fp

variable (R : FOps)

/-- The loop over `n`, nmd/nmd_index.py:110-126. -/
def v3AddF (st : V3) (w : List Char) (idx : ℕ) : V3 :=
  { st with
    ngramIndices := st.nList.dedup.foldl (fun d n =>
      (addLocationsF R (v3AddGrams w n)).foldl (fun d it => Dict.appendTo d it.1 (idx, it.2)) d)
      st.ngramIndices }

/-- `add_word(word)`, nmd/nmd_index.py:92-128. -/
def v3AddWordF (cf : List Char → List Char) (st : V3) (word : PyVal) : V3 × Except PyErr Unit :=
  match word with
  | .str w =>
    if w.length = 0 then (st, .error .valueError)
    else
      let w := st.fold cf w
      if Dict.has st.vocabIndices w then (st, .ok ())
      else if '\x02' ∈ w ∨ '\x03' ∈ w then (st, .error .assertionError)
      else
        match st.resolve cf w true with
        | (st', .error e) => (st', .error e)
        | (st', .ok idx) => (v3AddF R st' w (idx.getD 0), .ok ())
  | _ => (st, .error .typeError)

/-- "count matching n-grams", nmd/nmd_index.py:131-144: the subtraction is rounded, then the
addition. -/
def v3MatchesF (st : V3) (q : List Char) : Except PyErr (Dict ℕ (List ℚ)) :=
  st.nList.zipIdx.foldlM (fun ms nk => do
    let locs ← queryLocationsF R (v3QueryGrams q nk.1)
    return locs.foldl (fun ms gl =>
      ((Dict.get? st.ngramIndices gl.1).getD []).foldl (fun ms e =>
        bumpWith st.nList.length ms e.1 nk.2 (fun s => R.fl (s +
          R.fl (R.fl ((max gl.2.length e.2.length : ℕ) : ℚ) - emdF R gl.2 e.2)))) ms) ms) []

/-- "normalize scores", nmd/nmd_index.py:147-150, for one word. -/
def v3NormalizeRowF (st : V3) (q : List Char) (p : ℕ × List ℚ) : Except PyErr (ℕ × List ℚ) := do
  let norm ← st.nList.zipIdx.mapM (fun nk => do
    let x ← pyGet p.2 nk.2
    let den : ℤ := numGrams q.length nk.1
    if den = 0 then throw PyErr.zeroDivisionError else return R.fl (x / (den : ℚ)))
  return (p.1, norm)

/-- `__lookup(word, dim)`, nmd/nmd_index.py:130-154. -/
def v3LookupScoresF {S : Type} (agg : List ℚ → S) (st : V3) (q : List Char) :
    Except PyErr (List (ℕ × S)) := do
  let ms ← v3MatchesF R st q
  let normed ← ms.mapM (v3NormalizeRowF R st q)
  return normed.map (fun p => (p.1, agg p.2))

/-- `lookup(word, top_k, dim)`, nmd/nmd_index.py:156-186. -/
def v3LookupF {S : Type} [LinearOrder S] (agg : List ℚ → S) (cf : List Char → List Char) (st : V3)
    (word : PyVal) (topK : Option ℤ) : Except PyErr (List (List Char × S × ℚ)) :=
  match word with
  | .str w =>
    if w.length = 0 then .error .valueError
    else
      let q := st.fold cf w
      if '\x02' ∈ q ∨ '\x03' ∈ q then .error .assertionError
      else do
        let counter ← v3LookupScoresF R agg st q
        let _ ← pyGet (mostCommon counter 1) 0
        let k := v3TopK topK counter.length
        let out ← (mostCommon counter (k * 2)).mapM (fun p => do
          let v ← pyGet st.vocabulary p.1
          let s ← nmdF R (.str q) (.str v) (.int 2) true true
          return (v, p.2, s))
        return out.take k
  | _ => .error .typeError

/-- The state after a list of `add_word` calls (nmd/nmd_index.py:92-128), exceptions being caught by
the caller. -/
def v3AddAllF (cf : List Char → List Char) (st : V3) (args : List PyVal) : V3 :=
  args.foldl (fun st v => (v3AddWordF R cf st v).1) st

/-- The states reachable from the constructor, nmd/nmd_index.py:41-59, with positive sizes. -/
def V3ReachableF (cf : List Char → List Char) (st : V3) : Prop :=
  ∃ n cs st₀ args, V3.new n cs = .ok st₀ ∧ (∀ n ∈ st₀.nList, 0 < n) ∧ st = v3AddAllF R cf st₀ args

end Fp
end Verif
