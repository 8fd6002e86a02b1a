import Verif.Fp.IndexSpec
import Verif.Index.RankSpec

/-!
# The result of a full scan with floats

Everything here compares two words directly; no index is involved.
-/

namespace Verif.Fp

open GramSpec IndexSpec

variable (R : FOps)

/-- What `ngram_movers_distance(q, w, invert=True, normalize=normalize)` computes. -/
def bigramSimF (normalize : Bool) (q w : List Char) : ℚ :=
  match nmdF R (.str q) (.str w) (.int 2) true normalize with
  | .ok x => x
  | .error _ => 0

/-- The reported pair of computed scores. -/
def rankPairF {S : Type} (agg : List ℚ → S) (ns : List ℤ) (normalize : Bool) (q w : List Char) :
    S ×ₗ ℚ :=
  toLex (agg (scoreVecF R ns normalize q w), bigramSimF R normalize q w)

/-- The result of a full scan: of the `2 k` words with the best computed score, the `k` best by the
pair of computed scores. -/
def fullScanF {S : Type} [LinearOrder S] (agg : List ℚ → S) (ns : List ℤ) (filterN : ℤ)
    (normalize : Bool) (words : List (List Char)) (k : ℕ) (q : List Char) : List (List Char) :=
  best (rankPairF R agg ns normalize q) k
    (best (fun w => agg (scoreVecF R ns normalize q w)) (2 * k) (discovered ns filterN q words))

end Verif.Fp
