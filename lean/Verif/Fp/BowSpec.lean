import Verif.Bow.Spec

/-!
# Contracts of the assignment solver for computed costs

`linear_sum_assignment` itself computes with floats, so that it need not find the least total of the
costs it is given. Part of the properties hold for any complete matching, the others for a matching
whose total exceeds the least one by at most `ε`.
-/

namespace Verif.BowSpec

/-- For a rectangular matrix the solver returns a complete matching. -/
def LsaComplete (lsa : List (List ℚ) → List (ℕ × ℕ)) : Prop :=
  ∀ (m : List (List ℚ)) (C : ℕ), (∀ row ∈ m, row.length = C) → IsMatch m.length C (lsa m)

/-- For a rectangular matrix the solver returns a complete matching whose total is at most `ε` above
the least one. -/
def LsaNear (ε : ℚ) (lsa : List (List ℚ) → List (ℕ × ℕ)) : Prop :=
  ∀ (m : List (List ℚ)) (C : ℕ), (∀ row ∈ m, row.length = C) →
    IsMatch m.length C (lsa m) ∧ ∀ P, IsMatch m.length C P →
      matchCost m (lsa m) ≤ matchCost m P + ε

/-- Sizes for which every integer involved is a float. -/
def Small (n : ℤ) (w : List Char) : Prop := n ≤ 2 ^ 51 ∧ w.length ≤ 2 ^ 51

end Verif.BowSpec
