import Verif.Emd.Facts

/-!
# Properties C01–C06 and C29: `emd_1d_dp`

`emdDp xs ys : Except PyErr ℚ` models the call `emd_1d_dp(xs, ys)`. Each statement is about
the call itself (it returns normally, with a value satisfying the specification).
-/

namespace Verif

open EmdSpec

/-- C01. `emd_1d_dp` returns, and its value is the least cost over *all* transport plans. -/
theorem C01_emd_dp_optimal (xs ys : List ℚ) :
    ∃ c, emdDp xs ys = .ok c ∧ IsEmd xs ys c :=
  ⟨emd xs ys, emdDp_ok xs ys, isEmd_emd xs ys⟩

/-- Concrete case: unequal lengths, the best plan pairs 0 with 0 and 3/4 with 1. -/
example : emdDp [3/4, 0] [0, 1/2, 1] = .ok (5/4) := by decide +kernel

/-- C02. `emd_1d_dp(x, y) == emd_1d_dp(y, x)`. -/
theorem C02_emd_dp_symm (xs ys : List ℚ) : emdDp xs ys = emdDp ys xs := by
  rw [emdDp_ok, emdDp_ok, emd_comm]

example : emdDp [0, 1] [1/3] = .ok (4/3) ∧ emdDp [1/3] [0, 1] = .ok (4/3) := by
  constructor <;> decide +kernel

/-- C03. The result does not depend on the order in which the points are given. -/
theorem C03_emd_dp_perm {xs xs' ys ys' : List ℚ} (hx : xs.Perm xs') (hy : ys.Perm ys') :
    emdDp xs ys = emdDp xs' ys' := by
  rw [emdDp_ok, emdDp_ok, emd_perm hx hy]

example : ([1, 0, 1/2] : List ℚ).Perm [0, 1/2, 1] ∧ ([1/4, 0] : List ℚ).Perm [0, 1/4] := by
  constructor <;> decide +kernel

/-- C04. The result is zero exactly when both arguments hold the same points with the same
multiplicities. -/
theorem C04_emd_dp_zero_iff (xs ys : List ℚ) : emdDp xs ys = .ok 0 ↔ xs.Perm ys := by
  rw [emdDp_ok, ← emd_eq_zero_iff]
  exact ⟨fun h => by injection h, fun h => by rw [h]⟩

example : emdDp [1/2, 0, 1/2] [1/2, 1/2, 0] = .ok 0 ∧ emdDp [1/2, 0] [1/2, 1/2] ≠ .ok 0 := by
  constructor <;> decide +kernel

/-- C05. Triangle inequality, for sequences of any (different) lengths. -/
theorem C05_emd_dp_triangle {xs ys zs : List ℚ} {a b c : ℚ}
    (hab : emdDp xs ys = .ok a) (hbc : emdDp ys zs = .ok b) (hac : emdDp xs zs = .ok c) :
    c ≤ a + b := by
  rw [emdDp_ok] at hab hbc hac
  injection hab with hab; injection hbc with hbc; injection hac with hac
  subst hab hbc hac
  exact emd_triangle xs ys zs

example : emdDp [0] [1/2, 1] = .ok (3/2) ∧ emdDp [1/2, 1] [1] = .ok 1 ∧ emdDp [0] [1] = .ok 1 := by
  refine ⟨?_, ?_, ?_⟩ <;> decide +kernel

/-- C06. Lower and upper bounds; the last bound holds whenever all points lie within distance
one of each other. -/
theorem C06_emd_dp_bounds {xs ys : List ℚ} {c : ℚ} (h : emdDp xs ys = .ok c) :
    0 ≤ c ∧ |(xs.length : ℚ) - ys.length| ≤ c ∧ c ≤ xs.length + ys.length ∧
      (Spread1 xs ys → c ≤ max (xs.length : ℚ) ys.length) := by
  rw [emdDp_ok] at h
  injection h with h
  subst h
  exact ⟨emd_nonneg _ _, abs_sub_le_emd _ _, emd_le_add _ _,
    fun hs => by exact_mod_cast emd_le_max hs⟩

example : emdDp [0, 0] [1, 1, 1] = .ok 3 := by decide +kernel
/-- Outside the unit spread the third bound is attained. -/
example : emdDp [0, 0] [7] = .ok 3 := by decide +kernel

/-- C29. An n-gram occurring at the relative positions `xs` in one word and `ys` in the other
contributes between `min` and `2 * min` of the two counts to the similarity
`len xs + len ys - emd_1d_dp(xs, ys)`. -/
theorem C29_contribution_bounds {xs ys : List ℚ} {c : ℚ}
    (hx : ∀ x ∈ xs, 0 ≤ x ∧ x ≤ 1) (hy : ∀ y ∈ ys, 0 ≤ y ∧ y ≤ 1)
    (h : emdDp xs ys = .ok c) :
    min (xs.length : ℚ) ys.length ≤ xs.length + ys.length - c ∧
      (xs.length : ℚ) + ys.length - c ≤ 2 * min (xs.length : ℚ) ys.length := by
  obtain ⟨_, h2, _, h4⟩ := C06_emd_dp_bounds h
  have hs : Spread1 xs ys := by
    intro x hx' y hy'
    have := hx x hx'; have := hy y hy'
    rw [abs_le]; constructor <;> linarith
  have h5 := h4 hs
  have h6 := min_add_max (xs.length : ℚ) ys.length
  have h7 := max_sub_min_eq_abs (xs.length : ℚ) ys.length
  rw [abs_sub_comm] at h7
  constructor <;> linarith

example : emdDp [0, 1] [0] = .ok 1 ∧ emdDp [0, 0] [1] = .ok 2 := by
  constructor <;> decide +kernel

end Verif
