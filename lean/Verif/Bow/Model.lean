import Verif.Core.Model

/-!
# Model of `nmd/nmd_bow.py`

The two bags are given as the lists obtained from `list(bag_of_words)`
(nmd/nmd_bow.py:29-30; an iterable of characters if a `str` is passed).
`scipy.optimize.linear_sum_assignment` is the parameter `lsa`, returning the zipped row and
column indices.
-/

namespace Verif

/-- One cell of the cost matrix, nmd/nmd_bow.py:37-40. -/
def bowCell (n w₁ w₂ : PyVal) : Except PyErr ℚ :=
  match nmd w₁ w₂ n false true with
  | .ok r => .ok r
  | .error .zeroDivisionError => .ok (if w₁ ≠ w₂ then 1 else 0)
  | .error e => .error e

/-- The cost matrix, nmd/nmd_bow.py:33-41. -/
def bowCosts (n : PyVal) (a b : List PyVal) : Except PyErr (List (List ℚ)) :=
  a.mapM fun w₁ => b.mapM fun w₂ => bowCell n w₁ w₂

/-- `costs[row_idx][col_idx]`, nmd/nmd_bow.py:51, 55. -/
def bowEntry (costs : List (List ℚ)) (p : ℕ × ℕ) : Except PyErr ℚ := do
  let row ← pyGet costs p.1
  pyGet row p.2

/-- `bow_ngram_movers_distance(bag_of_words_1, bag_of_words_2, n, invert, normalize)`,
nmd/nmd_bow.py:9-60. -/
def bowNmd (lsa : List (List ℚ) → List (ℕ × ℕ)) (a b : List PyVal) (n : PyVal)
    (invert normalize : Bool) : Except PyErr ℚ := do
  let costs ← bowCosts n a b
  let pairs := if costs = [] then [] else lsa costs
  let out ←
    if invert then
      pairs.foldlM (fun out p => do let c ← bowEntry costs p; return out - c)
        (min a.length b.length : ℚ)
    else
      pairs.foldlM (fun out p => do let c ← bowEntry costs p; return out + c)
        |(a.length : ℚ) - b.length|
  if normalize then
    if max a.length b.length = 0 then throw .zeroDivisionError
    else return out / (max a.length b.length : ℚ)
  else return out

end Verif
