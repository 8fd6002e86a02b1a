import Mathlib.Algebra.Order.Field.Rat
import Mathlib.Algebra.Order.Group.Abs
import Mathlib.Data.List.Sort
import Verif.Py.Basic

/-!
# Model of `nmd/emd_1d.py`: `emd_1d_dp`

Floats are exact rationals. List indexing can fail (`indexError`).
-/

namespace Verif

/-- Python's `sorted(xs)` on numbers (nmd/emd_1d.py:16-17, 51-52); any sorting algorithm gives
the same list here, insertion sort is chosen because it evaluates in the kernel. -/
def pySorted (xs : List ℚ) : List ℚ := xs.insertionSort (· ≤ ·)

/-- Body of the inner loop, nmd/emd_1d.py:77-88: computes `curr_dp_row[j]`. -/
def dpCell (x y : List ℚ) (i : Nat) (prev : List ℚ) (curr : List ℚ) (j : Nat) :
    Except PyErr (List ℚ) := do
  let matchCost := |(← pyGet x (i - 1)) - (← pyGet y (j - 1))| + (← pyGet prev (j - 1))
  let leaveX := 1 + (← pyGet prev j)
  let leaveY := 1 + (← pyGet curr (j - 1))
  pySet curr j (min (min matchCost leaveX) leaveY)

/-- Body of the outer loop, nmd/emd_1d.py:70-92: fills `curr` for row `i`, then swaps
the two buffers (the stale row becomes the next scratch row). -/
def dpRow (x y : List ℚ) (bufs : List ℚ × List ℚ) (i : Nat) :
    Except PyErr (List ℚ × List ℚ) := do
  let curr ← pySet bufs.2 0 (i : ℚ)
  let curr ← (List.range' 1 y.length).foldlM (dpCell x y i bufs.1) curr
  return (curr, bufs.1)

/-- nmd/emd_1d.py:56-97 (after sorting): swap so that `x` is the shorter list, run the DP,
return `prev_dp_row[len_y]`. -/
def emdDpSorted (x y : List ℚ) : Except PyErr ℚ := do
  let (x, y) := if x.length > y.length then (y, x) else (x, y)
  let row0 : List ℚ := (List.range (y.length + 1)).map (fun j : ℕ => (j : ℚ))
  let bufs ← (List.range' 1 x.length).foldlM (dpRow x y) (row0, row0)
  pyGet bufs.1 y.length

/-- `emd_1d_dp(positions_x, positions_y)`, nmd/emd_1d.py:28-97. -/
def emdDp (xs ys : List ℚ) : Except PyErr ℚ :=
  emdDpSorted (pySorted xs) (pySorted ys)

/-- The value returned by `emd_1d_dp` (nmd/emd_1d.py:28-97). `emdDp_ok` shows that the
error branch is never taken, so this loses nothing. -/
def emd (xs ys : List ℚ) : ℚ :=
  match emdDp xs ys with
  | .ok v => v
  | .error _ => 0

end Verif
