import Verif.Index.Spec
import Verif.Fp.Model
import Mathlib.Data.Prod.Lex

/-!
# What a word list should compute with floats

Everything here compares two words directly; no index is involved.
-/

namespace Verif.Fp

open GramSpec IndexSpec

variable (R : FOps)

/-- The different elements of a list, in the order in which they first appear. -/
def firsts {α : Type} [DecidableEq α] (l : List α) : List α :=
  l.foldl (fun acc x => if x ∈ acc then acc else acc ++ [x]) []

/-- The n-grams of `q` that `w` has as well, in the order in which they first appear in `q`. -/
def sharedGrams (n : ℤ) (q w : List Char) : List (List Char) :=
  (firsts (gramsOf n q)).filter (fun g => g ∈ gramsOf n w)

/-- The computed similarity of two words for one `n`: for one shared n-gram after the other, add the
number of its occurrences and subtract the computed transport cost between the rounded positions. -/
def simNF (n : ℤ) (q w : List Char) : ℚ :=
  (sharedGrams n q w).foldl (fun s g =>
    R.fl (R.fl (s + (((gramsOf n q).count g : ℚ) + (gramsOf n w).count g)) -
      emdF R ((posOf (gramsOf n q) g).map R.fl) ((posOf (gramsOf n w) g).map R.fl))) 0

/-- The computed similarity for one `n`, normalised or not. -/
def scoreNF (normalize : Bool) (n : ℤ) (q w : List Char) : ℚ :=
  if normalize then R.fl (simNF R n q w / denom n q w) else simNF R n q w

/-- The computed similarities for all configured `n`. -/
def scoreVecF (ns : List ℤ) (normalize : Bool) (q w : List Char) : List ℚ :=
  ns.map (fun n => scoreNF R normalize n q w)

/-- The computed lower bound for one `n`. -/
def lowerNF (normalize : Bool) (n : ℤ) (q w : List Char) : ℚ :=
  if normalize then
    (sharedGrams n q w).foldl (fun s g => R.fl (s +
      R.fl (((min ((gramsOf n q).count g) ((gramsOf n w).count g) : ℕ) : ℚ) / denom n q w))) 0
  else commonN n q w

/-- The computed lower bounds for all configured `n`. -/
def lowerVecF (ns : List ℤ) (normalize : Bool) (q w : List Char) : List ℚ :=
  ns.map (fun n => lowerNF R normalize n q w)

/-- What a lookup should return: distinct stored words with their computed scores (aggregated first,
then `ngram_movers_distance` for `n = 2`), as many as possible up to `k`, the best first, and nothing
better left out. -/
structure BestF {S : Type} [LinearOrder S] (agg : List ℚ → S) (ns : List ℤ) (filterN : ℤ)
    (normalize : Bool) (words : List (List Char)) (k : ℕ) (q : List Char)
    (res : List (List Char × (S ×ₗ ℚ))) : Prop where
  nodup : (res.map Prod.fst).Nodup
  scores : ∀ r ∈ res, r.1 ∈ words ∧ Eligible ns filterN q r.1 ∧
    (ofLex r.2).1 = agg (scoreVecF R ns normalize q r.1) ∧
    nmdF R (.str q) (.str r.1) (.int 2) true normalize = .ok (ofLex r.2).2
  length : res.length = min k (eligibleWords ns filterN q words).length
  sorted : res.Pairwise (fun a b => b.2 ≤ a.2)
  best : ∀ w ∈ words, Eligible ns filterN q w → w ∉ res.map Prod.fst →
    ∀ r ∈ res, agg (scoreVecF R ns normalize q w) ≤ (ofLex r.2).1

end Verif.Fp
