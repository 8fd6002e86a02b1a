import Mathlib.Algebra.Order.Field.Rat
import Mathlib.Algebra.BigOperators.Group.Multiset.Basic
import Mathlib.Order.Bounds.Basic

/-!
# Specification vocabulary for bag-of-words distances

Independent of the implementation. `IsAssign` is about bags (multisets), `IsMatch` is about
the row and column indices of a matrix and states the contract of
`scipy.optimize.linear_sum_assignment`.
-/

namespace Verif.BowSpec

variable {α : Type}

/-- `M` pairs items of `A` with items of `B`, each occurrence at most once, and uses up the
smaller bag. -/
def IsAssign (A B : Multiset α) (M : Multiset (α × α)) : Prop :=
  M.map Prod.fst ≤ A ∧ M.map Prod.snd ≤ B ∧ M.card = min A.card B.card

/-- Total distance over the pairs. -/
def assignCost (d : α → α → ℚ) (M : Multiset (α × α)) : ℚ := (M.map fun p => d p.1 p.2).sum

/-- `c` is the least total distance over all ways of assigning the smaller bag. -/
def IsLeastAssign (d : α → α → ℚ) (a b : List α) (c : ℚ) : Prop :=
  IsLeast {c | ∃ M, IsAssign (a : Multiset α) (b : Multiset α) M ∧ c = assignCost d M} c

/-- A complete matching of the smaller side of an `R × C` matrix: no row and no column is used
twice. -/
def IsMatch (R C : ℕ) (P : List (ℕ × ℕ)) : Prop :=
  (P.map Prod.fst).Nodup ∧ (P.map Prod.snd).Nodup ∧ (∀ p ∈ P, p.1 < R ∧ p.2 < C) ∧
    P.length = min R C

/-- Entry of a matrix given by rows (0 outside). -/
def entry (m : List (List ℚ)) (i j : ℕ) : ℚ := ((m[i]?.getD [])[j]?).getD 0

/-- Total of the matched entries. -/
def matchCost (m : List (List ℚ)) (P : List (ℕ × ℕ)) : ℚ := (P.map fun p => entry m p.1 p.2).sum

/-- Documented contract of `scipy.optimize.linear_sum_assignment`: for a rectangular matrix it
returns a complete matching of least total. -/
def LsaOk (lsa : List (List ℚ) → List (ℕ × ℕ)) : Prop :=
  ∀ (m : List (List ℚ)) (C : ℕ), (∀ row ∈ m, row.length = C) →
    IsMatch m.length C (lsa m) ∧ ∀ P, IsMatch m.length C P → matchCost m (lsa m) ≤ matchCost m P

end Verif.BowSpec
