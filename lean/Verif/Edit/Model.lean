import Verif.Py.Index

/-!
# Model of the edit distances and the BK tree

* `edit_distance` and `damerau_levenshtein_distance` (experiments/edit_distance.py, lines 1–60)
* `levenshtein` and `BKNode` (experiments/automata.py, lines 298–343)

A string is the list of its characters. A `range` object is the list of its numbers. `BKNode.children`
is an association list with distinct keys; nodes are immutable and `insert` returns the new tree.
-/

namespace Verif
namespace Edit

variable {α : Type} [DecidableEq α]

/-! ### `edit_distance` -/

/-- `for i1, c1 in enumerate(s1): …` (lines 8–12). -/
def edCells (c2 : α) (distances : List Nat) : List α → Nat → List Nat → Except PyErr (List Nat)
  | [], _, row => .ok row
  | c1 :: cs, i1, row => do
    if c1 = c2 then
      let x ← pyGet distances i1
      edCells c2 distances cs (i1 + 1) (row ++ [x])
    else
      let x ← pyGet distances i1
      let y ← pyGet distances (i1 + 1)
      let z ← pyGetI row (-1)
      edCells c2 distances cs (i1 + 1) (row ++ [1 + min (min x y) z])

/-- `for i2, c2 in enumerate(s2): …` (lines 6–13). -/
def edRows (s1 : List α) : List α → Nat → List Nat → Except PyErr (List Nat)
  | [], _, distances => .ok distances
  | c2 :: cs, i2, distances => do
    let row ← edCells c2 distances s1 0 [i2 + 1]
    edRows s1 cs (i2 + 1) row

/-- `edit_distance(s1, s2)` (lines 1–14). -/
def editDistance (s1 s2 : List α) : Except PyErr Nat := do
  let p := if s1.length > s2.length then (s2, s1) else (s1, s2)
  let distances ← edRows p.1 p.2 0 (List.range (p.1.length + 1))
  pyGetI distances (-1)

/-! ### `levenshtein` -/

/-- `for idx_2, char_2 in enumerate(s2): …` (lines 307–312). -/
def levenCells (c1 : α) (previous : List Nat) : List α → Nat → List Nat → Except PyErr (List Nat)
  | [], _, current => .ok current
  | c2 :: cs, idx2, current => do
    let insertions := (← pyGet previous (idx2 + 1)) + 1
    let deletions := (← pyGet current idx2) + 1
    let substitutions := (← pyGet previous idx2) + (if c1 ≠ c2 then 1 else 0)
    levenCells c1 previous cs (idx2 + 1)
      (current ++ [min (min insertions deletions) substitutions])

/-- `for idx_1, char_1 in enumerate(s1): …` (lines 305–313). -/
def levenRows (s2 : List α) : List α → Nat → List Nat → Except PyErr (List Nat)
  | [], _, previous => .ok previous
  | c1 :: cs, idx1, previous => do
    let current ← levenCells c1 previous s2 0 [idx1 + 1]
    levenRows s2 cs (idx1 + 1) current

/-- `levenshtein(s1, s2)` from the second statement on (lines 301–315). -/
def levenshteinBody (s1 s2 : List α) : Except PyErr Nat :=
  if s1 = [] then .ok s2.length
  else do
    let row ← levenRows s2 s1 0 (List.range (s2.length + 1))
    pyGetI row (-1)

/-- `levenshtein(s1, s2)` (lines 298–315): the recursive call never recurses again. -/
def levenshtein (s1 s2 : List α) : Except PyErr Nat :=
  if s1.length < s2.length then
    if s2.length < s1.length then .error .recursionError else levenshteinBody s2 s1
  else levenshteinBody s1 s2

/-! ### `damerau_levenshtein_distance` -/

/-- The entry computed in lines 52–59; `twoago = None` is `none`. -/
def dlCell (seq1 seq2 : List α) (twoago : Option (List Nat)) (oneago : List Nat) (x y : Nat)
    (thisrow : List Nat) : Except PyErr Nat := do
  let a ← pyGet seq1 x
  let b ← pyGet seq2 y
  let delcost := (← pyGet oneago y) + 1
  let addcost := (← pyGetI thisrow ((y : Int) - 1)) + 1
  let subcost := (← pyGetI oneago ((y : Int) - 1)) + (if a ≠ b then 1 else 0)
  let m := min (min delcost addcost) subcost
  if x > 0 ∧ y > 0 ∧ some a = seq2[y - 1]? ∧ seq1[x - 1]? = some b ∧ a ≠ b then
    match twoago with
    | none => .error .typeError
    | some row => do
      let t ← pyGetI row ((y : Int) - 2)
      pure (min m (t + 1))
  else pure m

/-- `for y in range(len(seq2)): …` (lines 51–59), `n` rounds starting at `y`. -/
def dlCells (seq1 seq2 : List α) (twoago : Option (List Nat)) (oneago : List Nat) (x : Nat) :
    Nat → Nat → List Nat → Except PyErr (List Nat)
  | 0, _, thisrow => .ok thisrow
  | n + 1, y, thisrow => do
    let v ← dlCell seq1 seq2 twoago oneago x y thisrow
    let thisrow ← pySet thisrow y v
    dlCells seq1 seq2 twoago oneago x n (y + 1) thisrow

/-- `for x in range(len(seq1)): …` (lines 46–59), `n` rounds starting at `x`. -/
def dlRows (seq1 seq2 : List α) :
    Nat → Nat → Option (List Nat) → List Nat → Except PyErr (List Nat)
  | 0, _, _, thisrow => .ok thisrow
  | n + 1, x, oneago, thisrow => do
    let row ← dlCells seq1 seq2 oneago thisrow x seq2.length 0
      (List.replicate seq2.length 0 ++ [x + 1])
    dlRows seq1 seq2 n (x + 1) (some thisrow) row

/-- `damerau_levenshtein_distance(seq1, seq2)` (lines 17–60). -/
def damerauDistance (seq1 seq2 : List α) : Except PyErr Nat := do
  let row ← dlRows seq1 seq2 seq1.length 0 none (List.range' 1 seq2.length ++ [0])
  pyGetI row ((seq2.length : Int) - 1)

/-! ### `BKNode` -/

/-- `BKNode` (experiments/automata.py, lines 318–321). -/
inductive BK (α : Type) where
  | node (term : List α) (children : List (Nat × BK α))

mutual

/-- `BKNode.insert` (lines 323–328). -/
def BK.insert : BK α → List α → Except PyErr (BK α)
  | .node term children, other =>
    match levenshtein term other with
    | .error e => .error e
    | .ok distance =>
      match BK.insertKids distance other children with
      | .error e => .error e
      | .ok children => .ok (.node term children)

/-- `if distance in self.children: … else: …` (lines 325–328); a new key is added at the end. -/
def BK.insertKids (distance : Nat) (other : List α) :
    List (Nat × BK α) → Except PyErr (List (Nat × BK α))
  | [] => .ok [(distance, .node other [])]
  | (d, c) :: rest =>
    if d = distance then
      match BK.insert c other with
      | .error e => .error e
      | .ok c => .ok ((d, c) :: rest)
    else
      match BK.insertKids distance other rest with
      | .error e => .error e
      | .ok rest => .ok ((d, c) :: rest)

end

/-- `range(lo, hi)` for `lo ≥ 0`. -/
def rangeFrom (lo hi : Int) : List Nat := (List.range hi.toNat).filter (fun i => lo ≤ (i : Int))

/-- `for _dist in range(max(0, distance - k), distance + k + 1): …` (lines 335–337); `kids` holds
what the call on each child gives. -/
def bkLoop (kids : List (Nat × Except PyErr (Nat × List (List α)))) :
    List Nat → Nat → List (List α) → Except PyErr (Nat × List (List α))
  | [], counter, out => .ok (counter, out)
  | dist :: dists, counter, out =>
    match kids.lookup dist with
    | none => bkLoop kids dists counter out
    | some (.error e) => .error e
    | some (.ok (n, more)) => bkLoop kids dists (counter + n) (out ++ more)

mutual

/-- `BKNode._search` (lines 330–338): the counter and what is added to `output_set`, as the list of
added elements. -/
def BK.search : BK α → List α → Int → Except PyErr (Nat × List (List α))
  | .node t children, term, k =>
    match levenshtein t term with
    | .error e => .error e
    | .ok distance =>
      bkLoop (BK.searchKids children term k)
        (rangeFrom (max 0 ((distance : Int) - k)) ((distance : Int) + k + 1)) 1
        (if (distance : Int) ≤ k then [t] else [])

/-- The results of `_search` on the children, of which lines 335–337 pick some. -/
def BK.searchKids : List (Nat × BK α) → List α → Int →
    List (Nat × Except PyErr (Nat × List (List α)))
  | [], _, _ => []
  | (d, c) :: rest, term, k => (d, BK.search c term k) :: BK.searchKids rest term k

end

/-- `BKNode(first)` followed by `insert` for every word of a list (as in lines 357–359). -/
def BK.build (first : List α) (words : List (List α)) : Except PyErr (BK α) :=
  words.foldlM BK.insert (.node first [])

end Edit
end Verif
