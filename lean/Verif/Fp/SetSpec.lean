import Verif.WordSet.Spec
import Verif.Fp.IndexSpec

/-!
# What a word set should compute with floats

Everything here compares two words directly; there are no ids, no indexes and no stored n-grams.
-/

namespace Verif.Fp

open GramSpec WordSetSpec

variable (R : FOps)

/-- The n-grams of all sizes, one size after the other. -/
def allGrams (ns : List ℕ) (w : List Char) : List (List Char) := ns.flatMap (fun n => grams n w)

/-- The shared n-grams in the order in which they are added up: that of their first appearance in
the word with fewer different n-grams, in the query if there are equally many. -/
def visited (ns : List ℕ) (q w : List Char) : List (List Char) :=
  if (firsts (allGrams ns q)).length ≤ (firsts (allGrams ns w)).length then
    (firsts (allGrams ns q)).filter (fun g => g ∈ allGrams ns w)
  else (firsts (allGrams ns w)).filter (fun g => g ∈ allGrams ns q)

/-- The computed similarity: for one shared n-gram after the other, the number of its occurrences
minus the computed transport cost between the rounded positions. -/
def simSF (ns : List ℕ) (q w : List Char) : ℚ :=
  (visited ns q w).foldl (fun s g => R.fl (s +
    R.fl (((positionsOf g.length q g).length : ℚ) + (positionsOf g.length w g).length -
      emdF R ((positionsOf g.length q g).map R.fl) ((positionsOf g.length w g).map R.fl)))) 0

/-- The computed score. -/
def scoreSF (ns : List ℕ) (q w : List Char) : ℚ :=
  max 0 (min 1 (R.fl (simSF R ns q w / (totalCount ns q w : ℚ))))

/-- `a` is preferred to `b` under the scores `sc`: higher score, or equal score and earlier
insertion. -/
def PreferredBy (sc : List Char → ℚ) (s : List Member) (a b : Member) : Prop :=
  sc b.key < sc a.key ∨ (sc b.key = sc a.key ∧ s.idxOf a < s.idxOf b)

/-- `res` lists the `k` candidates among the members `s` preferred under the scores `sc`, in order of
preference. -/
structure RankingBy (sc : List Char → ℚ) (ns : List ℕ) (q : List Char) (s : List Member) (k : ℕ)
    (res : List Member) : Prop where
  members : ∀ m ∈ res, m ∈ s ∧ Candidate ns q m.key
  ordered : res.Pairwise (PreferredBy sc s)
  length : res.length = min k (s.filter (fun m => Candidate ns q m.key)).length
  best : ∀ m ∈ s, Candidate ns q m.key → m ∉ res → ∀ r ∈ res, PreferredBy sc s r m

end Verif.Fp
