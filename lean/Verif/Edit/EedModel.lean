import Verif.Py.Index
import Mathlib.Algebra.Order.Ring.Rat

/-!
# Model of `extended_edit_distance` (experiments/edit_distance.py, lines 63–167)

* A string is the list of its characters; `sp` is the character `' '` and `isspace` is
  `str.isspace` on single characters.
* Floats are rationals. `float('inf')`, with which a new row is filled before every entry is
  overwritten, is the arbitrary rational `inf`.
* The output for `debug=True` is not modelled.
-/

namespace Verif
namespace Edit

/-- The parameters of lines 65–69. -/
structure EedCosts where
  deletion : ℚ
  insertion : ℚ
  substitution : ℚ
  jump : ℚ
  rho : ℚ

/-- The default parameters (lines 65–69). -/
def EedCosts.default : EedCosts := ⟨1 / 5, 1, 1, 2, 3 / 10⟩

variable {α : Type} [DecidableEq α]

/-- `for hyp_idx, hyp_char in enumerate(hyp): …` (lines 127–130). -/
def eedCells (c : EedCosts) (refChar : α) (row : List ℚ) :
    List α → Nat → List ℚ → Except PyErr (List ℚ)
  | [], _, next => .ok next
  | h :: hs, j, next => do
    let a := (← pyGet next j) + c.deletion
    let b := (← pyGet row j) + (if refChar = h then 0 else c.substitution)
    let d := (← pyGet row (j + 1)) + c.insertion
    let next ← pySet next (j + 1) (min (min a b) d)
    eedCells c refChar row hs (j + 1) next

/-- `next_row` before jumps (lines 121–130). -/
def eedNext (c : EedCosts) (inf : ℚ) (hyp : List α) (refChar : α) (row : List ℚ) :
    Except PyErr (List ℚ) := do
  let first := (← pyGet row 0) + 1
  let next ← pySet (List.replicate (hyp.length + 1) inf) 0 first
  eedCells c refChar row hyp 0 next

/-- `min((cost, idx) for …)` (line 133): the least pair in the order of tuples. -/
def pyMinPair : List (ℚ × Nat) → Except PyErr (ℚ × Nat)
  | [] => .error .valueError
  | p :: ps => .ok (ps.foldl (fun m q => if q.1 < m.1 ∨ (q.1 = m.1 ∧ q.2 < m.2) then q else m) p)

/-- One round of the loop over `ref` (lines 120–151): the new row and the new coverage. -/
def eedStep (c : EedCosts) (inf : ℚ) (isspace : α → Bool) (hyp : List α) (refChar : α)
    (st : List ℚ × List ℚ) : Except PyErr (List ℚ × List ℚ) := do
  let next ← eedNext c inf hyp refChar st.1
  let m ← pyMinPair next.zipIdx
  let v ← pyGet st.2 m.2
  let cov ← pySet st.2 m.2 (v + 1)
  return (if isspace refChar then next.map (fun x => min x (c.jump + m.1)) else next, cov)

/-- The loop over `ref` (lines 120–151). -/
def eedLoop (c : EedCosts) (inf : ℚ) (isspace : α → Bool) (hyp : List α) :
    List α → List ℚ × List ℚ → Except PyErr (List ℚ × List ℚ)
  | [], st => .ok st
  | r :: rs, st => do
    let st ← eedStep c inf isspace hyp r st
    eedLoop c inf isspace hyp rs st

/-- `extended_edit_distance(hyp, ref, …)` (lines 63–167). -/
def extendedEditDistance (c : EedCosts) (inf : ℚ) (sp : α) (isspace : α → Bool)
    (hyp ref : List α) : Except PyErr ℚ := do
  let hyp := [sp] ++ hyp ++ [sp]
  let ref := [sp] ++ ref ++ [sp]
  let st ← eedLoop c inf isspace hyp ref
    ([0] ++ List.replicate hyp.length 1, List.replicate (hyp.length + 1) 0)
  let errors ← pyGetI st.1 (-1)
  let weighted := c.rho * (st.2.map (fun v => |v - 1|)).sum
  let den := (ref.length : ℚ) + weighted
  if den = 0 then throw .zeroDivisionError
  else return min 1 ((errors + weighted) / den)

end Edit
end Verif
