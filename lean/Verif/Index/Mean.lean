import Verif.Index.Model
import Verif.Index.Spec
import Mathlib.Analysis.SpecialFunctions.Pow.Real
import Mathlib.Algebra.Order.BigOperators.Group.List

/-!
# The power mean `mean(vec, dim)`, nmd/nmd_index.py:36-37
-/

namespace Verif

open IndexSpec

/-- `mean(vec, dim)` for real `dim`, nmd/nmd_index.py:36-37. -/
noncomputable def pyMean (dim : ℝ) (v : List ℚ) : ℝ :=
  ((v.map (fun x : ℚ => (x : ℝ) ^ dim)).sum / v.length) ^ (1 / dim)

/-- `agg` is strictly larger when all scores are strictly larger. -/
def StrictAgg {S : Type} [LT S] (agg : List ℚ → S) : Prop :=
  ∀ u v : List ℚ, u ≠ [] → List.Forall₂ (fun a b => 0 ≤ a ∧ a < b) u v → agg u < agg v

theorem sum_le_of_forall₂ {α : Type} [AddCommMonoid α] [LinearOrder α] [IsOrderedAddMonoid α]
    {f : ℚ → α} {u v : List ℚ} {R : ℚ → ℚ → Prop} (hf : ∀ a b, R a b → f a ≤ f b)
    (h : List.Forall₂ R u v) : (u.map f).sum ≤ (v.map f).sum := by
  induction h with
  | nil => exact le_refl _
  | cons hab _ ih =>
    simp only [List.map_cons, List.sum_cons]
    exact add_le_add (hf _ _ hab) ih

theorem sum_lt_of_forall₂ {α : Type} [AddCommMonoid α] [LinearOrder α] [IsOrderedCancelAddMonoid α]
    {f : ℚ → α} {u v : List ℚ} {R : ℚ → ℚ → Prop} (hf : ∀ a b, R a b → f a < f b)
    (hu : u ≠ []) (h : List.Forall₂ R u v) : (u.map f).sum < (v.map f).sum := by
  cases h with
  | nil => exact absurd rfl hu
  | cons hab ht =>
    simp only [List.map_cons, List.sum_cons]
    exact add_lt_add_of_lt_of_le (hf _ _ hab) (sum_le_of_forall₂ (fun a b h => (hf a b h).le) ht)

theorem mean1_monotone : MonotoneAgg mean1 := by
  intro u v h
  unfold mean1
  rw [h.length_eq]
  apply div_le_div_of_nonneg_right _ (Nat.cast_nonneg _)
  have := sum_le_of_forall₂ (f := id) (fun a b h => h.2) h
  simpa using this

theorem mean1_strict : StrictAgg mean1 := by
  intro u v hu h
  unfold mean1
  have hl : 0 < v.length := by rw [← h.length_eq]; exact List.length_pos_iff.2 hu
  rw [h.length_eq]
  apply div_lt_div_of_pos_right _ (by exact_mod_cast hl)
  have := sum_lt_of_forall₂ (f := id) (fun a b h => h.2) hu h
  simpa using this

theorem mean1_replicate {m : ℕ} (hm : m ≠ 0) (x : ℚ) : mean1 (List.replicate m x) = x := by
  have : (m : ℚ) ≠ 0 := by exact_mod_cast hm
  unfold mean1
  simp [this]

theorem rpow_sum_nonneg (dim : ℝ) {u : List ℚ} (h : ∀ a ∈ u, (0 : ℚ) ≤ a) :
    0 ≤ (u.map (fun x : ℚ => (x : ℝ) ^ dim)).sum := by
  apply List.sum_nonneg
  intro x hx
  obtain ⟨a, ha, rfl⟩ := List.mem_map.1 hx
  exact Real.rpow_nonneg (by exact_mod_cast h a ha) _

theorem forall₂_left_nonneg {R : ℚ → ℚ → Prop} {u v : List ℚ}
    (h : List.Forall₂ (fun a b => 0 ≤ a ∧ R a b) u v) : ∀ a ∈ u, (0 : ℚ) ≤ a := by
  induction h with
  | nil => simp
  | cons hab _ ih =>
    intro a ha
    rcases List.mem_cons.1 ha with rfl | ha
    · exact hab.1
    · exact ih a ha

theorem pyMean_monotone {dim : ℝ} (hd : 0 < dim) : MonotoneAgg (pyMean dim) := by
  intro u v h
  unfold pyMean
  rw [h.length_eq]
  apply Real.rpow_le_rpow
  · exact div_nonneg (rpow_sum_nonneg dim (forall₂_left_nonneg h)) (Nat.cast_nonneg _)
  · apply div_le_div_of_nonneg_right _ (Nat.cast_nonneg _)
    refine sum_le_of_forall₂ (f := fun x : ℚ => (x : ℝ) ^ dim) ?_ h
    intro a b hab
    exact Real.rpow_le_rpow (by exact_mod_cast hab.1) (by exact_mod_cast hab.2) hd.le
  · exact (one_div_pos.2 hd).le

theorem pyMean_strict {dim : ℝ} (hd : 0 < dim) : StrictAgg (pyMean dim) := by
  intro u v hu h
  unfold pyMean
  have hl : 0 < v.length := by rw [← h.length_eq]; exact List.length_pos_iff.2 hu
  rw [h.length_eq]
  apply Real.rpow_lt_rpow
  · exact div_nonneg (rpow_sum_nonneg dim (forall₂_left_nonneg h)) (Nat.cast_nonneg _)
  · apply div_lt_div_of_pos_right _ (by exact_mod_cast hl)
    refine sum_lt_of_forall₂ (f := fun x : ℚ => (x : ℝ) ^ dim) ?_ hu h
    intro a b hab
    exact Real.rpow_lt_rpow (by exact_mod_cast hab.1) (by exact_mod_cast hab.2) hd
  · exact one_div_pos.2 hd

theorem pyMean_replicate {dim : ℝ} (hd : 0 < dim) {m : ℕ} (hm : m ≠ 0) {x : ℚ} (hx : 0 ≤ x) :
    pyMean dim (List.replicate m x) = x := by
  have : (m : ℝ) ≠ 0 := by exact_mod_cast hm
  unfold pyMean
  rw [List.map_replicate, List.sum_replicate, List.length_replicate, nsmul_eq_mul,
    mul_div_cancel_left₀ _ this, ← Real.rpow_mul (by exact_mod_cast hx), mul_one_div,
    div_self hd.ne', Real.rpow_one]

theorem pyMean_one (v : List ℚ) : pyMean 1 v = (mean1 v : ℝ) := by
  unfold pyMean mean1
  simp only [Real.rpow_one, div_one]
  push_cast
  rfl

end Verif
