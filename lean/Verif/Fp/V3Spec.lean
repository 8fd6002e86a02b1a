import Verif.Fp.IndexSpec

/-!
# What `ApproxWordListV3` should compute with floats

Everything here compares two words directly; no index is involved.
-/

namespace Verif.Fp

open GramSpec IndexSpec

variable (R : FOps)

/-- The computed contribution of one shared n-gram: the larger number of occurrences less the computed
transport cost between the rounded positions. -/
def part3F (n : ℤ) (q w g : List Char) : ℚ :=
  R.fl (R.fl ((max ((grams n.toNat q).count g) ((gramsOf n w).count g) : ℕ) : ℚ) -
    emdF R ((posOf (grams n.toNat q) g).map R.fl) ((posOf (gramsOf n w) g).map R.fl))

/-- The n-grams of the query that the word has as well, in the order in which they first appear in the
query. -/
def shared3 (n : ℤ) (q w : List Char) : List (List Char) :=
  (firsts (grams n.toNat q)).filter (fun g => g ∈ gramsOf n w)

/-- The contributions added up one after the other. -/
def overlap3F (n : ℤ) (q w : List Char) : ℚ :=
  (shared3 n q w).foldl (fun s g => R.fl (s + part3F R n q w g)) 0

/-- The computed score for one `n`: relative to the number of n-grams of the query. -/
def score3F (n : ℤ) (q w : List Char) : ℚ :=
  R.fl (overlap3F R n q w / ((q.length : ℚ) + 3 - n))

/-- The computed scores for all sizes. -/
def scoreVec3F (ns : List ℤ) (q w : List Char) : List ℚ := ns.map (fun n => score3F R n q w)

end Verif.Fp
