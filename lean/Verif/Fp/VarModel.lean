import Verif.Emd.Variants
import Verif.Fp.IndexModel

/-!
# `emd_1d_slow`, `emd_1d_hybrid`, `emd_1d_old` in rounded arithmetic

The same code as in `Verif.Emd.Variants`, with every arithmetic operation on floats rounded. `abs`,
`min`, comparisons, `sorted` and the whole search for components (which only compares positions and
counts) are exact and shared with `Verif.Emd.Variants`. Sums of integers are exact. `sum` of
floats is that of `R` (`sumF`).
-/

namespace Verif
namespace Fp

variable (R : FOps)

/-- `sum(abs(x - y) for x, y in zip(xs, ys))`, nmd/emd_1d.py:22, 146, 382, 530. -/
def zipCostF (xs ys : List ℚ) : ℚ := sumF R (List.zipWith (fun x y => |R.fl (x - y)|) xs ys)

/-- nmd/emd_1d.py:20-22 (slow), 528-530 (old): the list `costs`. -/
def comboCostsF (xs ys : List ℚ) : List ℚ :=
  (ys.length : ℚ) :: (combinations ys.length xs).map (fun c => zipCostF R c ys)

/-- `emd_1d_slow(positions_x, positions_y)`, nmd/emd_1d.py:8-25. -/
def emdSlowF (xs ys : List ℚ) : Except PyErr ℚ := do
  let (xs, ys) := if xs.length < ys.length then (ys, xs) else (xs, ys)
  let xs := pySorted xs
  let ys := pySorted ys
  let m ← pyMin (comboCostsF R xs ys)
  return R.fl ((xs.length : ℚ) - ys.length + m)

/-- `min(abs(x - y) for x in xs) + len(xs) - 1`, nmd/emd_1d.py:133-135, 177-178 (hybrid), 370, 414,
521 (old): one `y` point. -/
def singleCostF (xs : List ℚ) (y : ℚ) : Except PyErr ℚ := do
  let m ← pyMin (xs.map (fun x => |R.fl (x - y)|))
  return R.fl (R.fl (m + xs.length) - 1)

/-- nmd/emd_1d.py:246-260 (hybrid): greedy matches at the smaller end, ascending lists. -/
def greedySmallF : ℚ → List ℚ → List ℚ → ℚ × List ℚ × List ℚ
  | d, x :: xs, y :: ys =>
    if y ≤ x then greedySmallF (R.fl (d + |R.fl (x - y)|)) xs ys
    else
      match xs with
      | x2 :: _ =>
        if y < x2 ∧ R.fl (y - x) ≤ R.fl (x2 - y) then greedySmallF (R.fl (d + |R.fl (y - x)|)) xs ys
        else (d, x :: xs, y :: ys)
      | [] => (d, x :: xs, y :: ys)
  | d, xs, ys => (d, xs, ys)

/-- nmd/emd_1d.py:263-277 (hybrid): greedy matches at the larger end, descending lists. -/
def greedyLargeF : ℚ → List ℚ → List ℚ → ℚ × List ℚ × List ℚ
  | d, x :: xs, y :: ys =>
    if y ≥ x then greedyLargeF (R.fl (d + |R.fl (y - x)|)) xs ys
    else
      match xs with
      | x2 :: _ =>
        if y > x2 ∧ R.fl (x - y) ≤ R.fl (y - x2) then greedyLargeF (R.fl (d + |R.fl (y - x)|)) xs ys
        else (d, x :: xs, y :: ys)
      | [] => (d, x :: xs, y :: ys)
  | d, xs, ys => (d, xs, ys)

/-- nmd/emd_1d.py:307-315: one row of the DP fallback; the previous row becomes a copy of the
current one. -/
def dpRowCopyF (x y : List ℚ) (bufs : List ℚ × List ℚ) (i : ℕ) :
    Except PyErr (List ℚ × List ℚ) := do
  let curr ← pySet bufs.2 0 (R.fl (i : ℚ))
  let curr ← (List.range' 1 y.length).foldlM (dpCellF R x y i bufs.1) curr
  return (curr, curr)

/-- nmd/emd_1d.py:293-318: the DP fallback on sorted lists. -/
def dpFallbackF (x y : List ℚ) : Except PyErr ℚ := do
  let (x, y) := if x.length > y.length then (y, x) else (x, y)
  let row0 : List ℚ := (List.range (y.length + 1)).map (fun j : ℕ => R.fl (j : ℚ))
  let bufs ← (List.range' 1 x.length).foldlM (dpRowCopyF R x y)
    (row0, List.replicate (y.length + 1) 0)
  pyGet bufs.1 y.length

/-- nmd/emd_1d.py:229-318 (hybrid): one merged component `left..right`; `seen` is
`last_seen + 1`. Returns the new distance. -/
def hybridComponentF (L : List (ℚ × Bool)) (d : ℚ) (seen left right : ℕ) : Except PyErr ℚ := do
  let d := if left > seen then R.fl (d + countX L seen left) else d
  let g := greedySmallF R d (componentOf L left right false) (componentOf L left right true)
  let h := greedyLargeF R g.1 g.2.1.reverse g.2.2.reverse
  let cx := h.2.1.reverse
  let cy := h.2.2.reverse
  if cy.length = 0 then return R.fl (h.1 + cx.length)
  else if cx.length = 0 then return h.1
  else
    let v ← dpFallbackF R cx cy
    return R.fl (h.1 + v)

/-- nmd/emd_1d.py:183-332: the part of `emd_1d_hybrid` after the early exits. -/
def hybridMainF (xs ys : List ℚ) : Except PyErr ℚ := do
  let L := locations xs ys
  let ranges ← componentRanges L
  let (d, seen) ← processRanges (hybridComponentF R L) ranges
  if L.length > seen then return R.fl (d + countX L seen L.length) else return d

/-- nmd/emd_1d.py:123-178 (hybrid), 361-414 (old): swap, early exits, removal of common points;
`main` is the rest of the function. -/
def emdShellF (main : List ℚ → List ℚ → Except PyErr ℚ) (xs ys : List ℚ) : Except PyErr ℚ :=
  let (xs, ys) := if xs.length < ys.length then (ys, xs) else (xs, ys)
  match ys with
  | [] => .ok (R.fl xs.length)
  | [y] => singleCostF R xs y
  | _ =>
    let xs := pySorted xs
    let ys := pySorted ys
    if xs.length = ys.length then .ok (zipCostF R xs.reverse ys.reverse)
    else
      let r := removeCommon xs ys
      match r.2 with
      | [] => .ok (R.fl r.1.length)
      | [y] => singleCostF R r.1 y
      | _ => main r.1 r.2

/-- `emd_1d_hybrid(positions_x, positions_y)`, nmd/emd_1d.py:101-332. -/
def emdHybridF (xs ys : List ℚ) : Except PyErr ℚ := emdShellF R (hybridMainF R) xs ys

/-- nmd/emd_1d.py:480-494 (old): smaller end. -/
def oldSmallF : ℚ → List ℚ → List ℚ → Except PyErr (ℚ × List ℚ × List ℚ)
  | d, xs, [] => .ok (d, xs, [])
  | _, [], _ :: _ => .error .indexError
  | d, x :: xs, y :: ys =>
    if y ≤ x then oldSmallF (R.fl (d + R.fl (x - y))) xs ys
    else
      match xs with
      | x2 :: _ =>
        if y < x2 ∧ R.fl (y - x) ≤ R.fl (x2 - y) then oldSmallF (R.fl (d + R.fl (y - x))) xs ys
        else .ok (d, x :: xs, y :: ys)
      | [] => .ok (d, x :: xs, y :: ys)

/-- nmd/emd_1d.py:501-515 (old): larger end, descending lists. The second branch compares
`x_max - y_max` with `y_max - x_max`, as in the source. -/
def oldLargeF : ℚ → List ℚ → List ℚ → Except PyErr (ℚ × List ℚ × List ℚ)
  | d, xs, [] => .ok (d, xs, [])
  | _, [], _ :: _ => .error .indexError
  | d, x :: xs, y :: ys =>
    if y ≥ x then oldLargeF (R.fl (d + R.fl (y - x))) xs ys
    else
      match xs with
      | x2 :: _ =>
        if y > x2 ∧ R.fl (x - y) ≤ R.fl (y - x) then oldLargeF (R.fl (d + R.fl (y - x))) xs ys
        else .ok (d, x :: xs, y :: ys)
      | [] => .ok (d, x :: xs, y :: ys)

/-- nmd/emd_1d.py:472-531 (old): one merged component. -/
def oldComponentF (L : List (ℚ × Bool)) (d : ℚ) (seen left right : ℕ) : Except PyErr ℚ := do
  let d := if left > seen then R.fl (d + ((left : ℚ) - seen)) else d
  let g ← oldSmallF R d (sliceOf L left right false) (sliceOf L left right true)
  let h ← oldLargeF R g.1 g.2.1.reverse g.2.2.reverse
  let cx := h.2.1.reverse
  let cy := h.2.2.reverse
  match cy with
  | [] => return R.fl (h.1 + cx.length)
  | [y] =>
    let m ← singleCostF R cx y
    return R.fl (h.1 + m)
  | _ =>
    let m ← pyMin (comboCostsF R cx cy)
    return R.fl (h.1 + R.fl (R.fl (m + cx.length) - cy.length))

/-- nmd/emd_1d.py:424-540: the part of `emd_1d_old` after the early exits. -/
def oldMainF (xs ys : List ℚ) : Except PyErr ℚ := do
  let L := locations xs ys
  let ranges ← componentRanges L
  let (d, seen) ← processRanges (oldComponentF R L) ranges
  if L.length > seen then return R.fl (d + ((L.length : ℚ) - seen)) else return d

/-- `emd_1d_old(positions_x, positions_y)`, nmd/emd_1d.py:335-540. -/
def emdOldF (xs ys : List ℚ) : Except PyErr ℚ := emdShellF R (oldMainF R) xs ys

/-- `math.isclose(a, b, abs_tol=tol)` with the default `rel_tol=1e-09`, as called at
tests/test_emd_correctness.py:117-119 and experiments/correctness-test.py:140-142 (CPython
`math_isclose_impl` for finite numbers; a builtin, not part of the repository). -/
def iscloseF (tol a b : ℚ) : Bool :=
  if a = b then true
  else
    let diff := |R.fl (b - a)|
    let rel := R.fl (1 / 10 ^ 9)
    diff ≤ |R.fl (rel * b)| || diff ≤ |R.fl (rel * a)| || diff ≤ tol

/-- `check_correct_emd_1d(positions_x, positions_y, tolerance)`,
experiments/correctness-test.py:88-188; without the test of the range (`inRange = false`) it is
`check_emd_implementations`, tests/test_emd_correctness.py:91-121. `emd_1d_dp_optimized`
(tests/test_emd_correctness.py:18-88, experiments/correctness-test.py:15-85) is the same code as
`emd_1d_dp`, so `emdDpF` stands for both. The tests of the types of the arguments are left out:
the arguments of the model are lists of numbers. -/
def checkEmdF (inRange : Bool) (tol : ℚ) (xs ys : List ℚ) : Except PyErr ℚ := do
  if inRange && !(xs.all (fun x => 0 ≤ x ∧ x ≤ 1) && ys.all (fun y => 0 ≤ y ∧ y ≤ 1)) then
    throw .assertionError
  let old ← emdOldF R xs ys
  let dp ← emdDpF R xs ys
  let dpOpt ← emdDpF R xs ys
  let hybrid ← emdHybridF R xs ys
  if !iscloseF R tol old dp then throw .assertionError
  if !iscloseF R tol old dpOpt then throw .assertionError
  if !iscloseF R tol old hybrid then throw .assertionError
  return old

end Fp
end Verif
