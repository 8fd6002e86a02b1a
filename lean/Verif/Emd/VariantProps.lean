import Verif.Emd.VariantsProof

/-!
# Properties C07–C09: the other implementations agree with `emd_1d_dp`

`emdSlow`, `emdHybrid` and `emdOld` model the calls `emd_1d_slow(xs, ys)`,
`emd_1d_hybrid(xs, ys)` and `emd_1d_old(xs, ys)`; an `IndexError`/`ValueError` of the Python
code would be an `.error`. Each theorem says the call returns, that it returns what
`emd_1d_dp` returns, and that this is the least cost over all transport plans.
-/

namespace Verif

open EmdSpec

/-- C07. The exhaustive search agrees with the dynamic program when every point of one side is
within one of every point of the other. -/
theorem C07_emd_slow_eq_dp {xs ys : List ℚ} (hs : Spread1 xs ys) :
    ∃ c, emdSlow xs ys = .ok c ∧ emdDp xs ys = .ok c ∧ IsEmd xs ys c :=
  ⟨emd xs ys, emdSlow_eq hs, emdDp_ok xs ys, isEmd_emd xs ys⟩

/-- Three points against two: three combinations are compared. -/
example : Spread1 [1, 0, 3/10] [1/5, 9/10] ∧ emdSlow [1, 0, 3/10] [1/5, 9/10] = .ok (6/5) := by
  constructor
  · intro x hx y hy
    simp only [List.mem_cons, List.not_mem_nil, or_false] at hx hy
    rcases hx with rfl | rfl | rfl <;> rcases hy with rfl | rfl <;> norm_num [abs_le]
  · decide +kernel

/-- C07. The bound one is sharp: two single points further apart than that always give
different answers (the search never charges more than one for the pair). -/
theorem C07_emd_slow_sharp {d : ℚ} (hd : 1 < d) :
    emdSlow [0] [d] = .ok 1 ∧ ∃ c, emdDp [0] [d] = .ok c ∧ 1 < c := by
  constructor
  · have h : 1 ≤ |d| := hd.le.trans (le_abs_self d)
    simp [emdSlow, pySorted, comboCosts, combinations, zipCost, pyMin, h]
  · refine ⟨_, emdDp_ok _ _, ?_⟩
    obtain ⟨M, hM, e⟩ := (isEmd_emd [0] [d]).1
    rw [e]
    have hc := plan_card_le_right hM
    simp only [Multiset.coe_card, List.length_singleton] at hc
    rcases Nat.lt_or_ge M.card 1 with h | h
    · have h0 : M = 0 := Multiset.card_eq_zero.1 (by omega)
      subst h0
      simp [planCost]
    · obtain ⟨p, rfl⟩ := Multiset.card_eq_one.1 (show M.card = 1 by omega)
      have h1 := hM.1
      have h2 := hM.2
      simp only [Multiset.map_singleton, Multiset.singleton_le, Multiset.mem_coe,
        List.mem_singleton] at h1 h2
      have : |p.1 - p.2| = d := by
        rw [h1, h2, zero_sub, abs_neg, abs_of_nonneg (by linarith)]
      simp [planCost, this, hd]

example : emdSlow [0] [3/2] = .ok 1 ∧ emdDp [0] [3/2] = .ok (3/2) := by
  constructor <;> decide +kernel

/-- C08. `emd_1d_hybrid` (common points removed, independent components, greedy matches at both
ends, two-row dynamic program for the rest) is exact. Distances up to two are allowed, so all
positions in `[0, 1]` are covered. -/
theorem C08_emd_hybrid_eq_dp {xs ys : List ℚ} (hs : Spread2 xs ys) :
    ∃ c, emdHybrid xs ys = .ok c ∧ emdDp xs ys = .ok c ∧ IsEmd xs ys c :=
  ⟨emd xs ys, emdHybrid_eq hs, emdDp_ok xs ys, isEmd_emd xs ys⟩

/-- The same on the positions the library produces: all in `[0, 1]`. -/
theorem C08_emd_hybrid_unit {xs ys : List ℚ} (hx : ∀ x ∈ xs, 0 ≤ x ∧ x ≤ 1)
    (hy : ∀ y ∈ ys, 0 ≤ y ∧ y ≤ 1) : emdHybrid xs ys = emdDp xs ys := by
  obtain ⟨c, h1, h2, _⟩ := C08_emd_hybrid_eq_dp (xs := xs) (ys := ys) (by
    intro x h y h'
    have := hx x h
    have := hy y h'
    rw [abs_le]; constructor <;> linarith)
  rw [h1, h2]

/-- A common point, several components, and a component that reaches the dynamic program. -/
example : emdHybrid [0, 1/10, 3/10, 1/2, 1] [1/5, 2/5, 9/10] = .ok (23/10) ∧
    emdDp [0, 1/10, 3/10, 1/2, 1] [1/5, 2/5, 9/10] = .ok (23/10) := by
  constructor <;> decide +kernel

example : emdHybrid [0, 1/10, 1/2, 1] [9/20, 1/2, 11/20] = .ok (9/5) ∧
    emdDp [0, 1/10, 1/2, 1] [9/20, 1/2, 11/20] = .ok (9/5) := by
  constructor <;> decide +kernel

/-- C08. The bound two is sharp: `emd_1d_hybrid` never leaves a point of the shorter side
unmatched, which is wrong for two single points further apart than two. -/
theorem C08_emd_hybrid_sharp {d : ℚ} (hd : 2 < d) :
    emdHybrid [0] [d] = .ok d ∧ ∃ c, emdDp [0] [d] = .ok c ∧ c ≤ 2 := by
  constructor
  · have h : 0 ≤ d := by linarith
    simp [emdHybrid, emdShell, singleCost, pyMin, h, bind, Except.bind, pure, Except.pure]
  · refine ⟨_, emdDp_ok _ _, ?_⟩
    have := (isEmd_emd [0] [d]).2 ⟨0, ⟨by simp, by simp⟩, rfl⟩
    simp [planCost] at this
    linarith

example : emdHybrid [0] [5] = .ok 5 ∧ emdDp [0] [5] = .ok 2 := by constructor <;> decide +kernel

/-- C09. `emd_1d_old` never fails and agrees with the dynamic program. -/
theorem C09_emd_old_eq_dp {xs ys : List ℚ} (hs : Spread1 xs ys) :
    ∃ c, emdOld xs ys = .ok c ∧ emdDp xs ys = .ok c ∧ IsEmd xs ys c :=
  ⟨emd xs ys, emdOld_eq hs, emdDp_ok xs ys, isEmd_emd xs ys⟩

/-- The same on the positions the library produces: all in `[0, 1]`. -/
theorem C09_emd_old_unit {xs ys : List ℚ} (hx : ∀ x ∈ xs, 0 ≤ x ∧ x ≤ 1)
    (hy : ∀ y ∈ ys, 0 ≤ y ∧ y ≤ 1) : emdOld xs ys = emdDp xs ys := by
  obtain ⟨c, h1, h2, _⟩ := C09_emd_old_eq_dp (xs := xs) (ys := ys) (by
    intro x h y h'
    have := hx x h
    have := hy y h'
    rw [abs_le]; constructor <;> linarith)
  rw [h1, h2]

example : emdOld [0, 1/10, 3/10, 1/2, 1] [1/5, 2/5, 9/10] = .ok (23/10) ∧
    emdDp [0, 1/10, 3/10, 1/2, 1] [1/5, 2/5, 9/10] = .ok (23/10) := by
  constructor <;> decide +kernel

/-- C09. The stronger range of C08 is not available here: with distances up to 3/2 the cap
`len(connected_y)` used for the leftover of a component is too small, and `emd_1d_old` returns
less than the least cost, where `emd_1d_hybrid` is right. -/
theorem C09_emd_old_differs :
    Spread2 [-3/2, -7/5, 11/10] [-1/20, 0] ∧
    emdOld [-3/2, -7/5, 11/10] [-1/20, 0] = .ok 3 ∧
    emdDp [-3/2, -7/5, 11/10] [-1/20, 0] = .ok (69/20) ∧
    emdHybrid [-3/2, -7/5, 11/10] [-1/20, 0] = .ok (69/20) := by
  refine ⟨?_, by decide +kernel, by decide +kernel, by decide +kernel⟩
  intro x hx y hy
  simp only [List.mem_cons, List.not_mem_nil, or_false] at hx hy
  rcases hx with rfl | rfl | rfl <;> rcases hy with rfl | rfl <;> norm_num [abs_le]

end Verif
