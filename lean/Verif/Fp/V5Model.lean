import Verif.Fp.IndexModel

/-!
# `ApproxWordListV5.lookup` in rounded arithmetic

`ApproxWordListV5` (nmd/nmd_index.py:188-412) stores and scores words as `ApproxWordListV6` does
(`Verif.Fp.IndexModel`); the two differ in what `lookup` makes of the scores.
-/

namespace Verif
namespace Fp

/-- `ApproxWordListV5.lookup(word, top_k, dim, invert, normalize)`, nmd/nmd_index.py:378-412. The
difference `normalize - match_score` is a float operation; the final sort compares the reported
values. -/
def lookupV5F (R : FOps) (agg : List ℚ → ℚ) (cf : List Char → List Char) (st : WL)
    (word topK : PyVal) (invert normalize : Bool) : Except PyErr (List (List Char × ℚ)) := do
  let (q, k) ← st.checkLookup cf word topK
  let scored ← lookupSimilarityF R agg st q k normalize
  let out ← (mostCommon scored (k * 2)).mapM (fun p => do
    return (← pyGet st.wordList p.1,
      if invert then p.2 else R.fl ((if normalize then 1 else 0) - p.2)))
  return sortDesc Prod.snd out

end Fp
end Verif
