import Verif.Bow.Model
import Verif.Fp.Model

/-!
# `bow_ngram_movers_distance` in rounded arithmetic

The same code as in `Verif.Bow.Model`, nmd/nmd_bow.py, with every arithmetic operation on floats
rounded. The lengths of the bags are integers and enter the first float operation as floats, which
is exact up to `2 ^ 53`. `lsa` stands for `scipy.optimize.linear_sum_assignment` applied to the
computed costs.
-/

namespace Verif
namespace Fp

variable (R : FOps)

/-- One cell of the cost matrix, nmd/nmd_bow.py:37-40. -/
def bowCellF (n w₁ w₂ : PyVal) : Except PyErr ℚ :=
  match nmdF R w₁ w₂ n false true with
  | .ok r => .ok r
  | .error .zeroDivisionError => .ok (if w₁ ≠ w₂ then 1 else 0)
  | .error e => .error e

/-- The cost matrix, nmd/nmd_bow.py:33-41. -/
def bowCostsF (n : PyVal) (a b : List PyVal) : Except PyErr (List (List ℚ)) :=
  a.mapM fun w₁ => b.mapM fun w₂ => bowCellF R n w₁ w₂

/-- `bow_ngram_movers_distance(bag_of_words_1, bag_of_words_2, n, invert, normalize)`,
nmd/nmd_bow.py:9-60. -/
def bowNmdF (lsa : List (List ℚ) → List (ℕ × ℕ)) (a b : List PyVal) (n : PyVal)
    (invert normalize : Bool) : Except PyErr ℚ := do
  let costs ← bowCostsF R n a b
  let pairs := if costs = [] then [] else lsa costs
  let out ←
    if invert then
      pairs.foldlM (fun out p => do let c ← bowEntry costs p; return R.fl (out - c))
        (min a.length b.length : ℚ)
    else
      pairs.foldlM (fun out p => do let c ← bowEntry costs p; return R.fl (out + c))
        |(a.length : ℚ) - b.length|
  if normalize then
    if max a.length b.length = 0 then throw .zeroDivisionError
    else return R.fl (out / (max a.length b.length : ℚ))
  else return out

end Fp
end Verif
