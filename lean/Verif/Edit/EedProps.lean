import Verif.Edit.EedLemmas
import Mathlib.Algebra.Order.Field.Basic

/-!
# Properties of `extended_edit_distance`
-/

namespace Verif
namespace Edit

open EedSpec

variable {α : Type} [DecidableEq α]

/-- C73: for every pair of strings and every choice of costs (the coverage weight being
non-negative) the function returns `min(1, (E + rho·V) / (len(ref) + 2 + rho·V))`, where `E` is the
least cost of a walk through the alignment grid of the padded strings and `V` is the coverage
penalty of that grid. The value with which new rows are filled does not matter. -/
theorem C73_eed_cheapest_walk (c : EedCosts) (inf : ℚ) (sp : α) (isspace : α → Bool)
    (hyp ref : List α) (hrho : 0 ≤ c.rho) :
    let h := [sp] ++ hyp ++ [sp]
    let r := [sp] ++ ref ++ [sp]
    let V := c.rho * coverage c (fun a => isspace a = true) h r
    ∃ E, IsLeast {x | After c (fun a => isspace a = true) h r (ref.length + 2) (hyp.length + 2) x} E ∧
      extendedEditDistance c inf sp isspace hyp ref =
        .ok (min 1 ((E + V) / ((ref.length : ℚ) + 2 + V))) :=
  eed_ok c inf sp isspace hyp ref hrho

example : (0 : ℚ) ≤ EedCosts.default.rho := by decide +kernel

/-- C74: with non-negative costs no exception is raised and the score is between 0 and 1. -/
theorem C74_eed_range (c : EedCosts) (hc : c.Nonneg) (inf : ℚ) (sp : α) (isspace : α → Bool)
    (hyp ref : List α) :
    ∃ x, extendedEditDistance c inf sp isspace hyp ref = .ok x ∧ 0 ≤ x ∧ x ≤ 1 := by
  obtain ⟨E, hE, h⟩ := eed_ok c inf sp isspace hyp ref hc.rho
  refine ⟨_, h, ?_, min_le_left _ _⟩
  have h1 := eed_walk_nonneg hc _ _ _ hE.1
  have h2 := mul_nonneg hc.rho (coverage_nonneg c (fun a => isspace a = true)
    ([sp] ++ hyp ++ [sp]) ([sp] ++ ref ++ [sp]))
  have h3 : (0 : ℚ) ≤ ref.length := Nat.cast_nonneg _
  exact le_min zero_le_one (div_nonneg (by linarith) (by linarith))

theorem eed_default_nonneg : EedCosts.default.Nonneg := by
  constructor <;> decide +kernel

example : extendedEditDistance EedCosts.default 0 ' ' (· == ' ') "ab cd".toList "cd ab".toList =
    .ok (41 / 79) := by decide +kernel

/-- C75: the score of a string against itself depends on its length only and is not zero unless
`rho` is: gap 0 is never visited. -/
theorem C75_eed_identical (c : EedCosts) (h1 : 0 < c.deletion) (h2 : 0 < c.insertion)
    (h3 : 0 < c.substitution) (h4 : 0 < c.jump) (h5 : 0 ≤ c.rho) (inf : ℚ) (sp : α)
    (isspace : α → Bool) (s : List α) :
    extendedEditDistance c inf sp isspace s s = .ok (c.rho / ((s.length : ℚ) + 2 + c.rho)) := by
  obtain ⟨E, hE, h⟩ := eed_ok c inf sp isspace s s h5
  have hl : ([sp] ++ s ++ [sp]).length = s.length + 2 := by simp
  have hd := eed_diagonal c (fun a => isspace a = true) ([sp] ++ s ++ [sp]) (s.length + 2) (by rw [hl])
  have hE0 : E = 0 := le_antisymm (hE.2 hd) ((eed_walk_zero h1 h2 h3 h4 _).1 _ _ hE.1).1
  rw [h, eed_self_coverage h1 h2 h3 h4, hE0, zero_add, mul_one]
  congr 1
  have hp : (0 : ℚ) ≤ s.length := Nat.cast_nonneg _
  rw [min_eq_right]
  rw [div_le_one (by linarith)]
  linarith

/-- C75: with the default parameters no string has distance 0 from itself. -/
theorem C75_eed_identical_not_zero (inf : ℚ) (sp : α) (isspace : α → Bool) (s : List α) :
    ∃ x, extendedEditDistance EedCosts.default inf sp isspace s s = .ok x ∧ 0 < x := by
  refine ⟨_, C75_eed_identical EedCosts.default (by decide +kernel) (by decide +kernel)
    (by decide +kernel) (by decide +kernel) (by decide +kernel) inf sp isspace s, ?_⟩
  have hr : 0 < EedCosts.default.rho := by decide +kernel
  have hp : (0 : ℚ) ≤ s.length := Nat.cast_nonneg _
  exact div_pos hr (by linarith)

/-- C75: the score is not symmetric. -/
theorem C75_eed_not_symmetric :
    extendedEditDistance EedCosts.default 0 ' ' (· == ' ') "a".toList "ab".toList ≠
      extendedEditDistance EedCosts.default 0 ' ' (· == ' ') "ab".toList "a".toList := by
  decide +kernel

end Edit
end Verif
