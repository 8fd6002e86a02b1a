import Mathlib.Algebra.Order.Field.Rat
import Mathlib.Algebra.BigOperators.Group.Multiset.Basic
import Mathlib.Algebra.Order.Group.Abs
import Mathlib.Order.Bounds.Basic

/-!
# Specification of the one-dimensional earth mover's distance with unit penalty

Independent of the implementation: a *transport plan* between two bags of points pairs
some points of the first with some points of the second, each point at most once.
-/

namespace Verif.EmdSpec

/-- `M` pairs points of `X` with points of `Y`, each occurrence at most once. -/
def IsPlan (X Y : Multiset ℚ) (M : Multiset (ℚ × ℚ)) : Prop :=
  M.map Prod.fst ≤ X ∧ M.map Prod.snd ≤ Y

/-- Distance moved by the pairs, plus one for every point of `X` or `Y` left unpaired. -/
def planCost (X Y : Multiset ℚ) (M : Multiset (ℚ × ℚ)) : ℚ :=
  (M.map fun p => |p.1 - p.2|).sum
    + ((X.card : ℚ) - M.card) + ((Y.card : ℚ) - M.card)

/-- The costs of all transport plans. -/
def planCosts (X Y : Multiset ℚ) : Set ℚ :=
  {c | ∃ M, IsPlan X Y M ∧ c = planCost X Y M}

/-- `c` is the least cost of a transport plan between the points of `xs` and `ys`. -/
def IsEmd (xs ys : List ℚ) (c : ℚ) : Prop :=
  IsLeast (planCosts (xs : Multiset ℚ) (ys : Multiset ℚ)) c

/-- All points are within distance one of each other (e.g. all lie in `[0, 1]`). -/
def Spread1 (xs ys : List ℚ) : Prop :=
  ∀ x ∈ xs, ∀ y ∈ ys, |x - y| ≤ 1

/-- All points are within distance two of each other. -/
def Spread2 (xs ys : List ℚ) : Prop :=
  ∀ x ∈ xs, ∀ y ∈ ys, |x - y| ≤ 2

end Verif.EmdSpec
