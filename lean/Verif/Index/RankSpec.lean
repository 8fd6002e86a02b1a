import Verif.Index.Spec
import Verif.Core.Model
import Mathlib.Data.List.Sort
import Mathlib.Data.Prod.Lex

/-!
# The exact result of a lookup, including the order among ties

No index and no pruning: every word is compared with the query directly.
-/

namespace Verif.IndexSpec

/-- The distinct elements of a list, in the order of their first occurrence. -/
def firsts {α : Type} [DecidableEq α] : List α → List α
  | [] => []
  | a :: l => a :: (firsts l).filter (fun b => b ≠ a)

/-- The first `k` elements in descending order of a key, ties staying in the given order. -/
def best {α S : Type} [LinearOrder S] (key : α → S) (k : ℕ) (l : List α) : List α :=
  (l.insertionSort (fun a b => key b ≤ key a)).take k

/-- The eligible words in the order in which a query comes across them: by size, then by n-gram of
the query in order of appearance, then by insertion. -/
def discovered (ns : List ℤ) (filterN : ℤ) (q : List Char) (words : List (List Char)) :
    List (List Char) :=
  firsts (ns.flatMap (fun n => (firsts (gramsOf n q)).flatMap (fun g =>
    (eligibleWords ns filterN q words).filter (fun w => g ∈ gramsOf n w))))

/-- `ngram_movers_distance(q, w, invert=True, normalize=normalize)`. -/
def bigramSim (normalize : Bool) (q w : List Char) : ℚ :=
  match nmd (.str q) (.str w) (.int 2) true normalize with
  | .ok x => x
  | .error _ => 0

/-- The reported pair of scores. -/
def rankPair {S : Type} (agg : List ℚ → S) (ns : List ℤ) (normalize : Bool) (q w : List Char) :
    S ×ₗ ℚ :=
  toLex (agg (scoreVec ns normalize q w), bigramSim normalize q w)

/-- The result of a full scan: of the `2 k` words with the best aggregated score, the `k` best by
the pair of scores. -/
def fullScan {S : Type} [LinearOrder S] (agg : List ℚ → S) (ns : List ℤ) (filterN : ℤ)
    (normalize : Bool) (words : List (List Char)) (k : ℕ) (q : List Char) : List (List Char) :=
  best (rankPair agg ns normalize q) k
    (best (fun w => agg (scoreVec ns normalize q w)) (2 * k) (discovered ns filterN q words))

/-- The `k` best eligible words by the pair of scores. -/
def idealScan {S : Type} [LinearOrder S] (agg : List ℚ → S) (ns : List ℤ) (filterN : ℤ)
    (normalize : Bool) (words : List (List Char)) (k : ℕ) (q : List Char) : List (List Char) :=
  best (rankPair agg ns normalize q) k (discovered ns filterN q words)

end Verif.IndexSpec
