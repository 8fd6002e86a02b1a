import Verif.Index.Props

/-!
# The power mean (C49) and the lookup theorems for it

`mean(vec, dim)` (nmd/nmd_index.py:36-37) for real `dim > 0`, on vectors of non-negative scores.
-/

namespace Verif

open IndexSpec

variable {cf : List Char → List Char}

/-- C49. The power mean lies between any lower and upper bound of the scores, so between the
smallest and the largest. -/
theorem C49_mean_between {dim : ℝ} (hd : 0 < dim) {v : List ℚ} (hv : v ≠ []) {lo hi : ℚ}
    (h0 : 0 ≤ lo) (hlo : ∀ x ∈ v, lo ≤ x) (hhi : ∀ x ∈ v, x ≤ hi) :
    (lo : ℝ) ≤ pyMean dim v ∧ pyMean dim v ≤ (hi : ℝ) := by
  have hl : v.length ≠ 0 := by simpa using hv
  obtain ⟨x, hx⟩ := List.exists_mem_of_ne_nil _ hv
  have hi0 : 0 ≤ hi := h0.trans ((hlo x hx).trans (hhi x hx))
  constructor
  · rw [← pyMean_replicate hd hl h0]
    apply pyMean_monotone hd
    rw [List.forall₂_iff_get]
    refine ⟨by simp, fun i h1 h2 => ?_⟩
    simp only [List.get_eq_getElem, List.getElem_replicate]
    exact ⟨h0, hlo _ (List.getElem_mem _)⟩
  · rw [← pyMean_replicate hd hl hi0]
    apply pyMean_monotone hd
    rw [List.forall₂_iff_get]
    refine ⟨by simp, fun i h1 h2 => ?_⟩
    simp only [List.get_eq_getElem, List.getElem_replicate]
    exact ⟨h0.trans (hlo _ (List.getElem_mem _)), hhi _ (List.getElem_mem _)⟩

/-- C49. The mean of equal scores is that score; the order of the scores is irrelevant; scaling the
scores scales the mean; `dim = 1` is the arithmetic mean. -/
theorem C49_mean_laws {dim : ℝ} (hd : 0 < dim) :
    (∀ (m : ℕ) (x : ℚ), m ≠ 0 → 0 ≤ x → pyMean dim (List.replicate m x) = x) ∧
    (∀ u v : List ℚ, u.Perm v → pyMean dim u = pyMean dim v) ∧
    (∀ (c : ℚ) (v : List ℚ), 0 ≤ c → (∀ x ∈ v, 0 ≤ x) →
      pyMean dim (v.map (fun x => c * x)) = c * pyMean dim v) ∧
    (∀ v : List ℚ, pyMean 1 v = ((v.sum / v.length : ℚ) : ℝ)) := by
  refine ⟨fun m x hm hx => pyMean_replicate hd hm hx, ?_, ?_, ?_⟩
  · intro u v h
    unfold pyMean
    rw [(h.map _).sum_eq, h.length_eq]
  · intro c v hc hv
    unfold pyMean
    have hsum : ((v.map (fun x => c * x)).map (fun x : ℚ => (x : ℝ) ^ dim)).sum =
        (c : ℝ) ^ dim * (v.map (fun x : ℚ => (x : ℝ) ^ dim)).sum := by
      induction v with
      | nil => simp
      | cons a v ih =>
        simp only [List.map_cons, List.sum_cons]
        rw [ih (fun x hx => hv x (List.mem_cons_of_mem _ hx)), mul_add]
        congr 1
        push_cast
        exact Real.mul_rpow (by exact_mod_cast hc) (by exact_mod_cast hv a List.mem_cons_self)
    rw [hsum, List.length_map, mul_div_assoc, Real.mul_rpow, ← Real.rpow_mul, mul_one_div,
      div_self hd.ne', Real.rpow_one]
    · exact_mod_cast hc
    · exact Real.rpow_nonneg (by exact_mod_cast hc) _
    · exact div_nonneg (rpow_sum_nonneg dim hv) (Nat.cast_nonneg _)
  · intro v
    rw [pyMean_one]; rfl

/-- Scores 1/2 and 1. -/
example : pyMean 1 [1 / 2, 1] = ((3 / 4 : ℚ) : ℝ) := by
  rw [(C49_mean_laws one_pos).2.2.2]; norm_num

example : pyMean 2 [1 / 2, 1] ≤ ((1 : ℚ) : ℝ) :=
  (C49_mean_between (lo := 0) two_pos (by simp) (by norm_num) (by norm_num) (by norm_num)).2

/-- C28 for the power mean of every real `dim > 0`. -/
theorem C28_power_mean (hcf : ∀ w, cf (cf w) = cf w) {st : WL} (hr : st.Reachable cf)
    {dim : ℝ} (hd : 0 < dim) {w : List Char} {k : ℤ} {normalize : Bool}
    {res : List (List Char × (ℝ ×ₗ ℚ))}
    (h : st.lookup (pyMean dim) cf (.str w) (.int k) normalize = .ok res) :
    TopScores ((eligibleWords st.nList st.filterN (st.fold cf w) st.vocabulary).map
        (fun v => pyMean dim (scoreVec st.nList normalize (st.fold cf w) v))) k.toNat
      (res.map (fun r => (ofLex r.2).1)) :=
  (C28_pruning_sound hcf hr (pyMean_monotone hd) h).1

/-- C31 for the power mean: an exact match comes first, with score exactly 1, and every other score
is below 1. -/
theorem C31_power_mean (hcf : ∀ w, cf (cf w) = cf w) {st : WL} (hr : st.Reachable cf)
    {dim : ℝ} (hd : 0 < dim) {w : List Char} {topK : PyVal}
    (hmem : st.fold cf w ∈ st.vocabulary) (hne : st.nList ≠ [])
    (hn2 : ∀ n ∈ st.nList, 2 ≤ n) (hlen : ∀ n ∈ st.nList, n ≤ ((st.fold cf w).length : ℤ) + 2)
    (hfil : st.filterN ≤ ((st.fold cf w).length : ℤ) + 2)
    {res : List (List Char × (ℝ ×ₗ ℚ))}
    (h : st.lookup (pyMean dim) cf (.str w) topK true = .ok res) :
    ∃ tl, res = (st.fold cf w, toLex (1, 1)) :: tl ∧ ∀ r ∈ tl, (ofLex r.2).1 < 1 := by
  obtain ⟨tl, h1, h2⟩ := C31_exact_match_first hcf hr (pyMean_monotone hd) (pyMean_strict hd)
    hmem hne hn2 hlen hfil h
  have e : pyMean dim (List.replicate st.nList.length 1) = 1 := by
    have := pyMean_replicate hd (m := st.nList.length) (by simpa using hne) (zero_le_one (α := ℚ))
    simpa using this
  rw [e] at h1 h2
  exact ⟨tl, h1, h2⟩

end Verif
