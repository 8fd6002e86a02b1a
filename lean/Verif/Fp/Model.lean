import Verif.Core.Model
import Verif.Fp.Sum

/-!
# `emd_1d_dp` and `ngram_movers_distance` in rounded arithmetic

The same code as in `Verif.Emd.Model` and `Verif.Core.Model`, with every arithmetic operation on
floats rounded. `abs`, `min`, comparisons and `sorted` are exact on floats. Sums of integers that the
code adds up before a float is involved are rounded here as well, which makes no difference up to
`2 ^ 53`.
-/

namespace Verif
namespace Fp

variable (R : FOps)

/-- Body of the inner loop, nmd/emd_1d.py:77-88. -/
def dpCellF (x y : List ℚ) (i : Nat) (prev : List ℚ) (curr : List ℚ) (j : Nat) :
    Except PyErr (List ℚ) := do
  let matchCost := R.fl (|R.fl ((← pyGet x (i - 1)) - (← pyGet y (j - 1)))| + (← pyGet prev (j - 1)))
  let leaveX := R.fl (1 + (← pyGet prev j))
  let leaveY := R.fl (1 + (← pyGet curr (j - 1)))
  pySet curr j (min (min matchCost leaveX) leaveY)

/-- Body of the outer loop, nmd/emd_1d.py:70-92. -/
def dpRowF (x y : List ℚ) (bufs : List ℚ × List ℚ) (i : Nat) :
    Except PyErr (List ℚ × List ℚ) := do
  let curr ← pySet bufs.2 0 (R.fl (i : ℚ))
  let curr ← (List.range' 1 y.length).foldlM (dpCellF R x y i bufs.1) curr
  return (curr, bufs.1)

/-- nmd/emd_1d.py:56-97 (after sorting). -/
def emdDpSortedF (x y : List ℚ) : Except PyErr ℚ := do
  let (x, y) := if x.length > y.length then (y, x) else (x, y)
  let row0 : List ℚ := (List.range (y.length + 1)).map (fun j : ℕ => R.fl (j : ℚ))
  let bufs ← (List.range' 1 x.length).foldlM (dpRowF R x y) (row0, row0)
  pyGet bufs.1 y.length

/-- `emd_1d_dp(positions_x, positions_y)`, nmd/emd_1d.py:28-97. -/
def emdDpF (xs ys : List ℚ) : Except PyErr ℚ :=
  emdDpSortedF R (pySorted xs) (pySorted ys)

/-- The value returned by `emd_1d_dp` (nmd/emd_1d.py:28-97); `emdDpF_ok` shows that the error branch
is never taken. -/
def emdF (xs ys : List ℚ) : ℚ :=
  match emdDpF R xs ys with
  | .ok v => v
  | .error _ => 0

/-- The loop filling `n_gram_locations`, nmd/nmd_core.py:50-55. -/
def nGramLocationsF (padded : List Char) (n : ℤ) : Dict (List Char) (List ℚ) :=
  (List.range (numGramsInt padded n).toNat).foldl
    (fun d idx => Dict.appendTo d (pySlice padded idx (idx + n.toNat))
      (R.fl ((idx : ℚ) / max 1 ((numGramsInt padded n : ℚ) - 1)))) []

/-- The similarity loop over the items of the first dict, nmd/nmd_core.py:64-68. -/
def similarityLoopF (d₁ d₂ : Dict (List Char) (List ℚ)) : ℚ :=
  d₁.foldl (fun s item =>
    match Dict.get? d₂ item.1 with
    | none => s
    | some l₂ => R.fl (R.fl (s + (item.2.length + l₂.length)) - emdF R item.2 l₂)) 0

/-- nmd/nmd_core.py:42-74: the computation after the argument checks. -/
def nmdCheckedF (w₁ w₂ : List Char) (n : ℤ) (invert normalize : Bool) : Except PyErr ℚ :=
  let p₁ := pad w₁
  let p₂ := pad w₂
  let m₁ := numGramsInt p₁ n
  let m₂ := numGramsInt p₂ n
  let similarity := similarityLoopF R (nGramLocationsF R p₁ n) (nGramLocationsF R p₂ n)
  let output : ℚ := if invert then similarity else R.fl ((m₁ : ℚ) + m₂ - similarity)
  if normalize then
    if m₁ + m₂ = 0 then .error .zeroDivisionError else .ok (R.fl (output / ((m₁ : ℚ) + m₂)))
  else .ok output

/-- `ngram_movers_distance(word_1, word_2, n, invert, normalize)`, nmd/nmd_core.py:4-74. -/
def nmdF (word₁ word₂ n : PyVal) (invert normalize : Bool) : Except PyErr ℚ := do
  let w₁ ← checkWord word₁
  let w₂ ← checkWord word₂
  let k ← checkN n
  nmdCheckedF R w₁ w₂ k invert normalize

end Fp
end Verif
