import Verif.Fp.RangeVar
import Verif.Fp.RangeProps

/-!
# Overflow and underflow in the variants of `emd_1d`

C252. As C165, for `emd_1d_slow`, `emd_1d_hybrid` and `emd_1d_old`.
-/

namespace Verif
namespace Fp

variable {comp : Bool} {O : FOps}

theorem near_of_f64 {l : List ℚ} (h : ∀ x ∈ l, IsF64 x ∧ |x| ≤ 2 ^ 900) : ∀ x ∈ l, Near x := by
  intro x hx
  obtain ⟨⟨k, e, rfl, _, he, _⟩, hb⟩ := h x hx
  exact ⟨OnGrid.mono ⟨k, rfl⟩ he, by simpa using hb⟩

/-- **C252.** `emd_1d_slow`, `emd_1d_hybrid` and `emd_1d_old` on together at most `2 ^ 20` binary64 numbers of at
most `2 ^ 900`: no operation overflows, none is affected by underflow, and the result, or the exception, is that of
the arithmetic without bounds on the exponent. -/
theorem C252_double_variants (hO : IsDouble comp O) {xs ys : List ℚ}
    (hx : ∀ x ∈ xs, IsF64 x ∧ |x| ≤ 2 ^ 900) (hy : ∀ y ∈ ys, IsF64 y ∧ |y| ≤ 2 ^ 900)
    (hl : xs.length + ys.length ≤ 2 ^ 20) :
    emdSlowF O xs ys = emdSlowF (unbounded comp).toFOps xs ys ∧
    emdHybridF O xs ys = emdHybridF (unbounded comp).toFOps xs ys ∧
    emdOldF O xs ys = emdOldF (unbounded comp).toFOps xs ys :=
  have nx := near_of_f64 hx
  have ny := near_of_f64 hy
  ⟨emdSlowF_range hO nx ny hl,
    emdShellF_range hO (fun _ _ a b c => hybridMainF_range hO a b c) nx ny hl,
    emdShellF_range hO (fun _ _ a b c => oldMainF_range hO a b c) nx ny hl⟩

-- with subnormal positions and a large one (5 is too far away for the hybrid and the old function to be right)
example : emdSlowF (doubleOps true) [1 / 2 ^ 1074, 2 ^ 899, 5] [3 / 2 ^ 1074, 7 / 2 ^ 1074] = .ok 3 ∧
    emdHybridF (doubleOps true) [1 / 2 ^ 1074, 2 ^ 899, 5] [3 / 2 ^ 1074, 7 / 2 ^ 1074] = .ok 6 ∧
    emdOldF (doubleOps true) [1 / 2 ^ 1074, 2 ^ 899, 5] [3 / 2 ^ 1074, 7 / 2 ^ 1074] = .ok 6 := by
  decide +kernel

end Fp
end Verif
