import Verif.Fp.IndexSpec

/-!
# What `ApproxWordListV5b` should compute with floats

Everything here compares two words directly; no index is involved.
-/

namespace Verif.Fp

open GramSpec IndexSpec

variable (R : FOps)

/-- Divide, if the scores are normalised. -/
def shareF (normalize : Bool) (n : ℤ) (q w : List Char) (x : ℚ) : ℚ :=
  if normalize then R.fl (x / denom n q w) else R.fl x

/-- The computed contribution of one shared n-gram: the number of its occurrences less the computed
transport cost between the rounded positions, divided if the scores are normalised. -/
def partF (normalize : Bool) (n : ℤ) (q w g : List Char) : ℚ :=
  shareF R normalize n q w (R.fl (R.fl (((gramsOf n q).count g + (gramsOf n w).count g : ℕ) : ℚ) -
    emdF R ((posOf (gramsOf n q) g).map R.fl) ((posOf (gramsOf n w) g).map R.fl)))

/-- The computed score for one `n`: the contributions added up one after the other. -/
def sumScoreNF (normalize : Bool) (n : ℤ) (q w : List Char) : ℚ :=
  (sharedGrams n q w).foldl (fun s g => R.fl (s + partF R normalize n q w g)) 0

/-- The computed scores for all configured `n`. -/
def sumScoreVecF (ns : List ℤ) (normalize : Bool) (q w : List Char) : List ℚ :=
  ns.map (fun n => sumScoreNF R normalize n q w)

/-- The computed lower bound for one `n`. -/
def sumLowerNF (normalize : Bool) (n : ℤ) (q w : List Char) : ℚ :=
  (sharedGrams n q w).foldl (fun s g => R.fl (s + shareF R normalize n q w
    ((min ((gramsOf n q).count g) ((gramsOf n w).count g) : ℕ) : ℚ))) 0

/-- The computed lower bounds for all configured `n`. -/
def sumLowerVecF (ns : List ℤ) (normalize : Bool) (q w : List Char) : List ℚ :=
  ns.map (fun n => sumLowerNF R normalize n q w)

end Verif.Fp
