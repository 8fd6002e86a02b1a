import Verif.Emd.Model

/-!
# Model of `nmd/emd_1d.py`: `emd_1d_slow`, `emd_1d_hybrid`, `emd_1d_old`

Floats are exact rationals. A descending Python list that is only popped from its end is
represented by the ascending list popped from its head. `min()` of an empty sequence is
`valueError`, indexing an empty list is `indexError`, comparing `None` with an index would be
`typeError`.
-/

namespace Verif

/-- Python's `min(seq)` of numbers, e.g. nmd/emd_1d.py:25, 133, 177, 521 (raises on empty). -/
def pyMin : List ℚ → Except PyErr ℚ
  | [] => .error .valueError
  | a :: l => .ok (l.foldl min a)

/-- `itertools.combinations(xs, n)`, used at nmd/emd_1d.py:21 and 529: the subsequences of
length `n`, in the order of the library. -/
def combinations : ℕ → List ℚ → List (List ℚ)
  | 0, _ => [[]]
  | _ + 1, [] => []
  | n + 1, x :: xs => (combinations n xs).map (x :: ·) ++ combinations (n + 1) xs

/-- `sum(abs(x - y) for x, y in zip(xs, ys))`, nmd/emd_1d.py:22, 146, 382, 530. -/
def zipCost (xs ys : List ℚ) : ℚ := (List.zipWith (fun x y => |x - y|) xs ys).sum

/-- nmd/emd_1d.py:20-22 (slow), 528-530 (old): the list `costs`. -/
def comboCosts (xs ys : List ℚ) : List ℚ :=
  (ys.length : ℚ) :: (combinations ys.length xs).map (fun c => zipCost c ys)

/-- `emd_1d_slow(positions_x, positions_y)`, nmd/emd_1d.py:8-25. -/
def emdSlow (xs ys : List ℚ) : Except PyErr ℚ := do
  let (xs, ys) := if xs.length < ys.length then (ys, xs) else (xs, ys)
  let xs := pySorted xs
  let ys := pySorted ys
  let m ← pyMin (comboCosts xs ys)
  return (xs.length : ℚ) - ys.length + m

/-- nmd/emd_1d.py:133-135, 177-178 (hybrid), 370, 414 (old): one `y` point. -/
def singleCost (xs : List ℚ) (y : ℚ) : Except PyErr ℚ := do
  let m ← pyMin (xs.map (fun x => |x - y|))
  return m + xs.length - 1

/-- nmd/emd_1d.py:151-169 (hybrid), 387-404 (old): remove points occurring in both lists.
Both lists ascending (popped from the end of the descending lists). -/
def removeCommon : List ℚ → List ℚ → List ℚ × List ℚ
  | [], ys => ([], ys)
  | xs, [] => (xs, [])
  | x :: xs, y :: ys =>
    if x < y then
      let r := removeCommon xs (y :: ys)
      (x :: r.1, r.2)
    else if y < x then
      let r := removeCommon (x :: xs) ys
      (r.1, y :: r.2)
    else removeCommon xs ys
termination_by xs ys => xs.length + ys.length

/-- Order of the tuples `(loc, is_y)` sorted at nmd/emd_1d.py:183, 424: lexicographic with `False < True`. -/
def locLe (p q : ℚ × Bool) : Prop := p.1 < q.1 ∨ (p.1 = q.1 ∧ (p.2 = true → q.2 = true))

instance : DecidableRel locLe := fun p q => by unfold locLe; infer_instance

/-- nmd/emd_1d.py:183, 424: `locations`. -/
def locations (xs ys : List ℚ) : List (ℚ × Bool) :=
  (xs.map (fun a => (a, false)) ++ ys.map (fun a => (a, true))).insertionSort locLe

/-- State of the range scans (nmd/emd_1d.py:187-188, 203-204): counter `n`, open range
`current_left`/`current_right`, `component_ranges`. -/
structure Scan where
  n : ℕ
  cur : Option ℕ
  ranges : List (ℕ × ℕ)

/-- Body of the scan loops, nmd/emd_1d.py:190-198 and 206-214 (hybrid), 431-439 and 447-455
(old); `mk cur idx` is the tuple appended. `None` in a tuple would fail when the ranges are
sorted; the error is raised here instead. -/
def scanStep (mk : ℕ → ℕ → ℕ × ℕ) (s : Scan) (e : ℕ × Bool) : Except PyErr Scan :=
  if e.2 then .ok { s with n := s.n + 1, cur := some (s.cur.getD e.1) }
  else if s.n > 0 then
    if s.n - 1 = 0 then
      match s.cur with
      | none => .error .typeError
      | some c => .ok { n := s.n - 1, cur := none, ranges := s.ranges ++ [mk c e.1] }
    else .ok { s with n := s.n - 1 }
  else .ok s

/-- The scan with its closing step, nmd/emd_1d.py:187-200 and 203-216 (hybrid), 428-441 and
444-457 (old); `last` is the index used to close an open range. -/
def scan (mk : ℕ → ℕ → ℕ × ℕ) (last : ℕ) (es : List (ℕ × Bool)) : Except PyErr (List (ℕ × ℕ)) := do
  let s ← es.foldlM (scanStep mk) { n := 0, cur := none, ranges := [] }
  match s.cur with
  | none => return s.ranges
  | some c => return s.ranges ++ [mk c last]

/-- `enumerate(locations)`, nmd/emd_1d.py:189, 205, 430, 446 (only index and flag are used). -/
def enumLocs (L : List (ℚ × Bool)) : List (ℕ × Bool) := L.zipIdx.map (fun p => (p.2, p.1.2))

/-- nmd/emd_1d.py:184-216 (hybrid), 425-457 (old): `component_ranges`. -/
def componentRanges (L : List (ℚ × Bool)) : Except PyErr (List (ℕ × ℕ)) := do
  let fwd ← scan (fun c i => (c, i)) (L.length - 1) (enumLocs L)
  let bwd ← scan (fun c i => (i, c)) 0 (enumLocs L).reverse
  return fwd ++ bwd

/-- Lexicographic order of ranges, as sorted at nmd/emd_1d.py:220, 463. -/
def rangeLe (p q : ℕ × ℕ) : Prop := p.1 < q.1 ∨ (p.1 = q.1 ∧ p.2 ≤ q.2)

instance : DecidableRel rangeLe := fun p q => by unfold rangeLe; infer_instance

/-- nmd/emd_1d.py:246-260 (hybrid): greedy matches at the smaller end; ascending lists, returns
the accumulated distance and what is left. -/
def greedySmall : ℚ → List ℚ → List ℚ → ℚ × List ℚ × List ℚ
  | d, x :: xs, y :: ys =>
    if y ≤ x then greedySmall (d + |x - y|) xs ys
    else
      match xs with
      | x2 :: _ =>
        if y < x2 ∧ y - x ≤ x2 - y then greedySmall (d + |y - x|) xs ys
        else (d, x :: xs, y :: ys)
      | [] => (d, x :: xs, y :: ys)
  | d, xs, ys => (d, xs, ys)

/-- nmd/emd_1d.py:263-277 (hybrid): greedy matches at the larger end; the lists are given in
descending order, i.e. popped from the head. -/
def greedyLarge : ℚ → List ℚ → List ℚ → ℚ × List ℚ × List ℚ
  | d, x :: xs, y :: ys =>
    if y ≥ x then greedyLarge (d + |y - x|) xs ys
    else
      match xs with
      | x2 :: _ =>
        if y > x2 ∧ x - y ≤ y - x2 then greedyLarge (d + |y - x|) xs ys
        else (d, x :: xs, y :: ys)
      | [] => (d, x :: xs, y :: ys)
  | d, xs, ys => (d, xs, ys)

/-- nmd/emd_1d.py:307-315: one row of the DP fallback; the previous row becomes a copy of the
current one. -/
def dpRowCopy (x y : List ℚ) (bufs : List ℚ × List ℚ) (i : ℕ) :
    Except PyErr (List ℚ × List ℚ) := do
  let curr ← pySet bufs.2 0 (i : ℚ)
  let curr ← (List.range' 1 y.length).foldlM (dpCell x y i bufs.1) curr
  return (curr, curr)

/-- nmd/emd_1d.py:293-318: the DP fallback on sorted lists. -/
def dpFallback (x y : List ℚ) : Except PyErr ℚ := do
  let (x, y) := if x.length > y.length then (y, x) else (x, y)
  let row0 : List ℚ := (List.range (y.length + 1)).map (fun j : ℕ => (j : ℚ))
  let bufs ← (List.range' 1 x.length).foldlM (dpRowCopy x y)
    (row0, List.replicate (y.length + 1) 0)
  pyGet bufs.1 y.length

/-- The points with index in `left..right` and the given flag, nmd/emd_1d.py:240-241. -/
def componentOf (L : List (ℚ × Bool)) (left right : ℕ) (flag : Bool) : List ℚ :=
  (L.zipIdx.filter (fun p => decide (left ≤ p.2) && decide (p.2 ≤ right) && (p.1.2 == flag))).map
    (fun p => p.1.1)

/-- nmd/emd_1d.py:232-236, 326-330: number of `x` points with index in `a..b-1`. -/
def countX (L : List (ℚ × Bool)) (a b : ℕ) : ℕ :=
  (L.zipIdx.filter (fun p => decide (a ≤ p.2) && decide (p.2 < b) && !p.1.2)).length

/-- nmd/emd_1d.py:229-318 (hybrid): one merged component `left..right`; `seen` is
`last_seen + 1`. Returns the new distance. -/
def hybridComponent (L : List (ℚ × Bool)) (d : ℚ) (seen left right : ℕ) : Except PyErr ℚ := do
  let d := if left > seen then d + countX L seen left else d
  let g := greedySmall d (componentOf L left right false) (componentOf L left right true)
  let h := greedyLarge g.1 g.2.1.reverse g.2.2.reverse
  let cx := h.2.1.reverse
  let cy := h.2.2.reverse
  if cy.length = 0 then return h.1 + cx.length
  else if cx.length = 0 then return h.1
  else
    let v ← dpFallback cx cy
    return h.1 + v

/-- nmd/emd_1d.py:222-322 (hybrid), 465-534 (old): merge overlapping ranges, then process the
component and go on after it. The first argument handles one merged component; `l..r` is the
component being merged, the list holds the remaining ranges in ascending order. Returns the
distance and `last_seen + 1`. -/
def mergeLoop (comp : ℚ → ℕ → ℕ → ℕ → Except PyErr ℚ) (d : ℚ) (seen l r : ℕ) :
    List (ℕ × ℕ) → Except PyErr (ℚ × ℕ)
  | [] => do
    let d ← comp d seen l r
    return (d, r + 1)
  | (l', r') :: rest =>
    if l' ≤ r then mergeLoop comp d seen l (max r r') rest
    else do
      let d ← comp d seen l r
      mergeLoop comp d (r + 1) l' r' rest

/-- nmd/emd_1d.py:219-322 (hybrid), 460-534 (old): all components, starting from the sorted
ranges. -/
def processRanges (comp : ℚ → ℕ → ℕ → ℕ → Except PyErr ℚ) (ranges : List (ℕ × ℕ)) :
    Except PyErr (ℚ × ℕ) :=
  match ranges.insertionSort rangeLe with
  | [] => .ok (0, 0)
  | (l, r) :: rest => mergeLoop comp 0 0 l r rest

/-- nmd/emd_1d.py:183-332: the part of `emd_1d_hybrid` after the early exits. -/
def hybridMain (xs ys : List ℚ) : Except PyErr ℚ := do
  let L := locations xs ys
  let ranges ← componentRanges L
  let (d, seen) ← processRanges (hybridComponent L) ranges
  if L.length > seen then return d + countX L seen L.length else return d

/-- nmd/emd_1d.py:123-178 (hybrid), 361-414 (old): swap, early exits, removal of common points;
`main` is the rest of the function. -/
def emdShell (main : List ℚ → List ℚ → Except PyErr ℚ) (xs ys : List ℚ) : Except PyErr ℚ :=
  let (xs, ys) := if xs.length < ys.length then (ys, xs) else (xs, ys)
  match ys with
  | [] => .ok xs.length
  | [y] => singleCost xs y
  | _ =>
    let xs := pySorted xs
    let ys := pySorted ys
    if xs.length = ys.length then .ok (zipCost xs.reverse ys.reverse)
    else
      let r := removeCommon xs ys
      match r.2 with
      | [] => .ok r.1.length
      | [y] => singleCost r.1 y
      | _ => main r.1 r.2

/-- `emd_1d_hybrid(positions_x, positions_y)`, nmd/emd_1d.py:101-332. -/
def emdHybrid (xs ys : List ℚ) : Except PyErr ℚ := emdShell hybridMain xs ys

/-- nmd/emd_1d.py:480-494 (old): smaller end. Differences are not wrapped in `abs`, and an empty
`connected_x` raises. -/
def oldSmall : ℚ → List ℚ → List ℚ → Except PyErr (ℚ × List ℚ × List ℚ)
  | d, xs, [] => .ok (d, xs, [])
  | _, [], _ :: _ => .error .indexError
  | d, x :: xs, y :: ys =>
    if y ≤ x then oldSmall (d + (x - y)) xs ys
    else
      match xs with
      | x2 :: _ =>
        if y < x2 ∧ y - x ≤ x2 - y then oldSmall (d + (y - x)) xs ys
        else .ok (d, x :: xs, y :: ys)
      | [] => .ok (d, x :: xs, y :: ys)

/-- nmd/emd_1d.py:501-515 (old): larger end, descending lists. The second branch compares
`x_max - y_max` with `y_max - x_max`, as in the source. -/
def oldLarge : ℚ → List ℚ → List ℚ → Except PyErr (ℚ × List ℚ × List ℚ)
  | d, xs, [] => .ok (d, xs, [])
  | _, [], _ :: _ => .error .indexError
  | d, x :: xs, y :: ys =>
    if y ≥ x then oldLarge (d + (y - x)) xs ys
    else
      match xs with
      | x2 :: _ =>
        if y > x2 ∧ x - y ≤ y - x then oldLarge (d + (y - x)) xs ys
        else .ok (d, x :: xs, y :: ys)
      | [] => .ok (d, x :: xs, y :: ys)

/-- `[loc for loc, is_y in locations[right:left - 1 if left else None:-1] if …]`,
nmd/emd_1d.py:476-477 (old); returned in ascending order (popped from the end). -/
def sliceOf (L : List (ℚ × Bool)) (left right : ℕ) (flag : Bool) : List ℚ :=
  ((((L.take (right + 1)).drop left).reverse.filter (fun p => p.2 == flag)).map Prod.fst).reverse

/-- nmd/emd_1d.py:472-531 (old): one merged component. -/
def oldComponent (L : List (ℚ × Bool)) (d : ℚ) (seen left right : ℕ) : Except PyErr ℚ := do
  let d := if left > seen then d + ((left : ℚ) - seen) else d
  let g ← oldSmall d (sliceOf L left right false) (sliceOf L left right true)
  let h ← oldLarge g.1 g.2.1.reverse g.2.2.reverse
  let cx := h.2.1.reverse
  let cy := h.2.2.reverse
  match cy with
  | [] => return h.1 + cx.length
  | [y] =>
    let m ← pyMin (cx.map (fun x => |x - y|))
    return h.1 + (m + cx.length - 1)
  | _ =>
    let m ← pyMin (comboCosts cx cy)
    return h.1 + (m + cx.length - cy.length)

/-- nmd/emd_1d.py:424-540: the part of `emd_1d_old` after the early exits. -/
def oldMain (xs ys : List ℚ) : Except PyErr ℚ := do
  let L := locations xs ys
  let ranges ← componentRanges L
  let (d, seen) ← processRanges (oldComponent L) ranges
  if L.length > seen then return d + ((L.length : ℚ) - seen) else return d

/-- `emd_1d_old(positions_x, positions_y)`, nmd/emd_1d.py:335-540. -/
def emdOld (xs ys : List ℚ) : Except PyErr ℚ := emdShell oldMain xs ys

end Verif
