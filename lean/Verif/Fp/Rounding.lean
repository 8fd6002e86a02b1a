import Mathlib.Data.Int.Log
import Mathlib.Algebra.Order.Round
import Mathlib.Data.Rat.Floor
import Mathlib.Algebra.Order.Field.Power
import Mathlib.Tactic.Linarith
import Mathlib.Tactic.Positivity
import Mathlib.Tactic.Ring
import Mathlib.Tactic.FieldSimp
import Mathlib.Tactic.NormNum

/-!
# Rounded arithmetic

What the theorems about floating point numbers assume about the arithmetic (`Arith`), and a proof
that rounding to 53 significant bits, ties to even, is such an arithmetic (`rneArith`). The function
`sum` is treated in `Verif.Fp.Sum`.

Overflow and gradual underflow are treated in `Verif.Fp.Range`. Not covered: the special values.
-/

namespace Verif
namespace Fp

/-- What the code uses of the arithmetic of floating point numbers: the result of every operation is
`fl` of the exact result; `sum` is the function of that name on lists of floating point numbers. -/
structure FOps where
  /-- the floating point number that stands for a rational number -/
  fl : ℚ → ℚ
  /-- the function `sum` on lists of floating point numbers -/
  sum : List ℚ → ℚ
  zero : fl 0 = 0

/-- `sum(v)` in Python before 3.12: left to right, starting from 0. -/
def plainSum (fl : ℚ → ℚ) (v : List ℚ) : ℚ := v.foldl (fun s x => fl (s + x)) 0

/-- An arithmetic in which rounding is monotone, symmetric, and accurate up to a factor. -/
structure Arith extends FOps where
  /-- the unit roundoff -/
  u : ℚ
  u_pos : 0 < u
  u_lt : u < 1
  mono : Monotone fl
  odd : ∀ x, fl (-x) = -fl x
  idem : ∀ x, fl (fl x) = fl x
  err : ∀ x, |fl x - x| ≤ u * |x|
  nat : ∀ n : ℕ, n ≤ 2 ^ 53 → fl n = n

/-- The nearest integer, the even one of two that are equally near. -/
def roundEven (x : ℚ) : ℤ :=
  if x - ⌊x⌋ < 1 / 2 then ⌊x⌋
  else if 1 / 2 < x - ⌊x⌋ then ⌊x⌋ + 1
  else if ⌊x⌋ % 2 = 0 then ⌊x⌋ else ⌊x⌋ + 1

/-- Rounding to 53 significant bits, ties to even (IEEE 754 binary64 without bounds on the
exponent). -/
def rne (x : ℚ) : ℚ :=
  roundEven (x / (2 : ℚ) ^ (Int.log 2 |x| - 52)) * (2 : ℚ) ^ (Int.log 2 |x| - 52)

theorem roundEven_int (n : ℤ) : roundEven n = n := by
  unfold roundEven
  simp

theorem roundEven_err (x : ℚ) : |(roundEven x : ℚ) - x| ≤ 1 / 2 := by
  have h1 := Int.floor_le x
  have h2 := Int.lt_floor_add_one x
  unfold roundEven
  rw [abs_le]
  split_ifs with h3 h4 h5
  · constructor <;> linarith
  · push_cast; constructor <;> linarith
  · constructor <;> linarith
  · push_cast; constructor <;> linarith

theorem roundEven_mono {x y : ℚ} (h : x ≤ y) : roundEven x ≤ roundEven y := by
  have hf := Int.floor_mono h
  have hx1 := Int.floor_le x
  have hx2 := Int.lt_floor_add_one x
  have hy1 := Int.floor_le y
  have hy2 := Int.lt_floor_add_one y
  rcases eq_or_lt_of_le hf with he | hlt
  · unfold roundEven
    rw [he]
    rw [he] at hx1 hx2
    split_ifs <;> first | omega | (exfalso; linarith)
  · have hx : roundEven x ≤ ⌊x⌋ + 1 := by
      unfold roundEven; split_ifs <;> omega
    have hy : ⌊y⌋ ≤ roundEven y := by
      unfold roundEven; split_ifs <;> omega
    omega

theorem roundEven_neg (x : ℚ) : roundEven (-x) = -roundEven x := by
  have hx1 := Int.floor_le x
  have hx2 := Int.lt_floor_add_one x
  by_cases hi : (⌊x⌋ : ℚ) = x
  · rw [← hi, roundEven_int, ← Int.cast_neg, roundEven_int]
  · have hlt : (⌊x⌋ : ℚ) < x := lt_of_le_of_ne hx1 hi
    have hf : ⌊-x⌋ = -⌊x⌋ - 1 := by
      rw [Int.floor_eq_iff]
      push_cast
      constructor <;> linarith
    unfold roundEven
    rw [hf]
    push_cast
    split_ifs <;> first | omega | (exfalso; linarith)

theorem rne_zero : rne 0 = 0 := by
  unfold rne
  rw [zero_div, show (0 : ℚ) = ((0 : ℤ) : ℚ) by norm_num, roundEven_int]
  simp

theorem rne_neg (x : ℚ) : rne (-x) = -rne x := by
  unfold rne
  rw [abs_neg, neg_div, roundEven_neg]
  push_cast
  ring

theorem log_bounds {x : ℚ} (hx : 0 < x) :
    (2 : ℚ) ^ Int.log 2 x ≤ x ∧ x < (2 : ℚ) ^ (Int.log 2 x + 1) := by
  have h1 := Int.zpow_log_le_self (b := 2) (by norm_num) hx
  have h2 := Int.lt_zpow_succ_log_self (b := 2) (by norm_num) x
  push_cast at h1 h2
  exact ⟨h1, h2⟩

theorem two_pow_pos (e : ℤ) : (0 : ℚ) < (2 : ℚ) ^ e := zpow_pos (by norm_num) e

/-- A number with at most 53 significant bits is its own rounding. -/
theorem rne_exact (k : ℤ) (e : ℤ) (hk : |k| ≤ 2 ^ 53) : rne (k * (2 : ℚ) ^ e) = k * (2 : ℚ) ^ e := by
  by_cases h0 : k = 0
  · subst h0; simp [rne_zero]
  have hpos : 0 < |(k : ℚ) * (2 : ℚ) ^ e| :=
    abs_pos.2 (mul_ne_zero (by exact_mod_cast h0) (two_pow_pos e).ne')
  obtain ⟨hl, -⟩ := log_bounds hpos
  set L := Int.log 2 |(k : ℚ) * (2 : ℚ) ^ e| with hL
  have habs : |(k : ℚ) * (2 : ℚ) ^ e| = |(k : ℚ)| * (2 : ℚ) ^ e := by
    rw [abs_mul, abs_of_pos (two_pow_pos e)]
  have hk' : |(k : ℚ)| ≤ 2 ^ 53 := by exact_mod_cast hk
  -- the exponent of the last bit
  have key : ∃ n : ℤ, (k : ℚ) * (2 : ℚ) ^ e / (2 : ℚ) ^ (L - 52) = n := by
    rcases lt_or_ge 53 (L - e) with h | h
    · exfalso
      have h1 : (2 : ℚ) ^ (54 + e) ≤ (2 : ℚ) ^ L := zpow_le_zpow_right₀ (by norm_num) (by omega)
      have h2 : (2 : ℚ) ^ L ≤ 2 ^ 53 * (2 : ℚ) ^ e := by
        refine hl.trans ?_
        rw [habs]
        exact mul_le_mul_of_nonneg_right hk' (two_pow_pos e).le
      rw [zpow_add₀ (by norm_num)] at h1
      have := two_pow_pos e
      norm_num at h1 h2
      linarith
    · rcases lt_or_ge 52 (L - e) with h' | h'
      · -- `k` is `2 ^ 53` or its opposite
        have hLe : L = e + 53 := by omega
        have h2 : (2 : ℚ) ^ (53 : ℕ) * (2 : ℚ) ^ e ≤ |(k : ℚ)| * (2 : ℚ) ^ e := by
          rw [← habs]
          refine le_trans (le_of_eq ?_) hl
          rw [hLe, zpow_add₀ (by norm_num), mul_comm]
          norm_num
        have h3 : (2 : ℚ) ^ (53 : ℕ) ≤ |(k : ℚ)| := le_of_mul_le_mul_right h2 (two_pow_pos e)
        have h4 : |k| = 2 ^ 53 := le_antisymm hk (by exact_mod_cast h3)
        rw [hLe, show e + 53 - 52 = e + 1 by ring, zpow_add₀ (by norm_num), zpow_one,
          show (k : ℚ) * 2 ^ e / (2 ^ e * 2) = k / 2 by
            have := (two_pow_pos e).ne'
            field_simp]
        rcases abs_eq (by norm_num : (0 : ℤ) ≤ 2 ^ 53) |>.1 h4 with h5 | h5
        · exact ⟨2 ^ 52, by rw [h5]; norm_num⟩
        · exact ⟨-2 ^ 52, by rw [h5]; norm_num⟩
      · obtain ⟨d, hd⟩ : ∃ d : ℕ, e - (L - 52) = d := ⟨(e - (L - 52)).toNat, by omega⟩
        refine ⟨k * 2 ^ d, ?_⟩
        rw [mul_div_assoc, ← zpow_sub₀ (by norm_num), hd]
        push_cast
        rw [zpow_natCast]
  obtain ⟨n, hn⟩ := key
  unfold rne
  rw [← hL, hn, roundEven_int, ← hn, div_mul_cancel₀ _ (two_pow_pos _).ne']

theorem rne_nat (n : ℕ) (hn : n ≤ 2 ^ 53) : rne n = n := by
  have h := rne_exact n 0 (by rw [abs_of_nonneg (by omega)]; exact_mod_cast hn)
  simpa using h

theorem pow_52 (e : ℤ) : (((2 ^ 52 : ℤ)) : ℚ) * (2 : ℚ) ^ (e - 52) = (2 : ℚ) ^ e := by
  rw [show (((2 ^ 52 : ℤ)) : ℚ) = (2 : ℚ) ^ (52 : ℤ) by norm_num, ← zpow_add₀ (by norm_num)]
  congr 1
  ring

theorem pow_53 (e : ℤ) : (((2 ^ 53 : ℤ)) : ℚ) * (2 : ℚ) ^ (e - 52) = (2 : ℚ) ^ (e + 1) := by
  rw [show (((2 ^ 53 : ℤ)) : ℚ) = (2 : ℚ) ^ (53 : ℤ) by norm_num, ← zpow_add₀ (by norm_num)]
  congr 1
  ring

/-- A rounded number has at most 53 significant bits. -/
theorem rne_form {x : ℚ} (hx : 0 < x) :
    ∃ k : ℤ, rne x = k * (2 : ℚ) ^ (Int.log 2 x - 52) ∧ 2 ^ 52 ≤ k ∧ k ≤ 2 ^ 53 := by
  obtain ⟨h1, h2⟩ := log_bounds hx
  have hp := two_pow_pos (Int.log 2 x - 52)
  refine ⟨roundEven (x / (2 : ℚ) ^ (Int.log 2 x - 52)), ?_, ?_, ?_⟩
  · unfold rne
    rw [abs_of_pos hx]
  · have h3 : (((2 ^ 52 : ℤ)) : ℚ) ≤ x / (2 : ℚ) ^ (Int.log 2 x - 52) := by
      rw [le_div_iff₀ hp]
      exact le_trans (le_of_eq (pow_52 _)) h1
    have := roundEven_mono h3
    rwa [roundEven_int] at this
  · have h3 : x / (2 : ℚ) ^ (Int.log 2 x - 52) ≤ (((2 ^ 53 : ℤ)) : ℚ) := by
      rw [div_le_iff₀ hp]
      exact h2.le.trans (le_of_eq (pow_53 _).symm)
    have := roundEven_mono h3
    rwa [roundEven_int] at this

theorem rne_pos_mono {x y : ℚ} (hx : 0 < x) (h : x ≤ y) : rne x ≤ rne y := by
  have hy := hx.trans_le h
  have hlog : Int.log 2 x ≤ Int.log 2 y := Int.log_mono_right hx h
  rcases eq_or_lt_of_le hlog with he | hlt
  · unfold rne
    rw [abs_of_pos hx, abs_of_pos hy, he]
    have hp := two_pow_pos (Int.log 2 y - 52)
    refine mul_le_mul_of_nonneg_right ?_ hp.le
    exact_mod_cast roundEven_mono (div_le_div_of_nonneg_right h hp.le)
  · obtain ⟨k, hk, -, hk2⟩ := rne_form hx
    obtain ⟨l, hl, hl1, -⟩ := rne_form hy
    rw [hk, hl]
    calc (k : ℚ) * (2 : ℚ) ^ (Int.log 2 x - 52)
        ≤ (2 ^ 53 : ℚ) * (2 : ℚ) ^ (Int.log 2 x - 52) :=
          mul_le_mul_of_nonneg_right (by exact_mod_cast hk2) (two_pow_pos _).le
      _ = (2 : ℚ) ^ (Int.log 2 x + 1) := by
          rw [← zpow_natCast, ← zpow_add₀ (by norm_num)]; congr 1; norm_num; ring
      _ ≤ (2 : ℚ) ^ Int.log 2 y := zpow_le_zpow_right₀ (by norm_num) (by omega)
      _ = (2 ^ 52 : ℚ) * (2 : ℚ) ^ (Int.log 2 y - 52) := by
          rw [← zpow_natCast, ← zpow_add₀ (by norm_num)]; congr 1; norm_num
      _ ≤ _ := mul_le_mul_of_nonneg_right (by exact_mod_cast hl1) (two_pow_pos _).le

theorem rne_nonneg {x : ℚ} (hx : 0 ≤ x) : 0 ≤ rne x := by
  rcases hx.eq_or_lt with h | h
  · rw [← h, rne_zero]
  · obtain ⟨k, hk, hk1, -⟩ := rne_form h
    rw [hk]
    have : (0 : ℚ) ≤ k := by
      have : (0 : ℤ) ≤ k := le_trans (by norm_num) hk1
      exact_mod_cast this
    exact mul_nonneg this (two_pow_pos _).le

theorem rne_mono : Monotone rne := by
  intro x y h
  rcases lt_or_ge 0 x with hx | hx
  · exact rne_pos_mono hx h
  · have h1 : rne x ≤ 0 := by
      have := rne_nonneg (x := -x) (by linarith)
      rw [rne_neg] at this
      linarith
    rcases le_or_gt 0 y with hy | hy
    · exact h1.trans (rne_nonneg hy)
    · have := rne_pos_mono (x := -y) (y := -x) (by linarith) (by linarith)
      rw [rne_neg, rne_neg] at this
      linarith

theorem rne_err (x : ℚ) : |rne x - x| ≤ 2⁻¹ ^ 53 * |x| := by
  by_cases h0 : x = 0
  · simp [h0, rne_zero]
  · have hpos : 0 < |x| := abs_pos.2 h0
    obtain ⟨h1, -⟩ := log_bounds hpos
    have hp := two_pow_pos (Int.log 2 |x| - 52)
    have h2 : rne x - x = ((roundEven (x / (2 : ℚ) ^ (Int.log 2 |x| - 52)) : ℚ) -
        x / (2 : ℚ) ^ (Int.log 2 |x| - 52)) * (2 : ℚ) ^ (Int.log 2 |x| - 52) := by
      rw [sub_mul, div_mul_cancel₀ _ hp.ne']
      rfl
    rw [h2, abs_mul, abs_of_pos hp]
    refine (mul_le_mul_of_nonneg_right (roundEven_err _) hp.le).trans ?_
    have h3 : (1 / 2 : ℚ) * (2 : ℚ) ^ (Int.log 2 |x| - 52) = 2⁻¹ ^ 53 * (2 : ℚ) ^ Int.log 2 |x| := by
      rw [sub_eq_add_neg, zpow_add₀ (by norm_num)]
      norm_num
      ring
    rw [h3]
    exact mul_le_mul_of_nonneg_left h1 (by positivity)

theorem rne_idem (x : ℚ) : rne (rne x) = rne x := by
  rcases lt_trichotomy x 0 with h | h | h
  · obtain ⟨k, hk, hk1, hk2⟩ := rne_form (x := -x) (by linarith)
    rw [rne_neg] at hk
    have : rne x = ((-k : ℤ) : ℚ) * (2 : ℚ) ^ (Int.log 2 (-x) - 52) := by push_cast; linarith
    rw [this]
    exact rne_exact _ _ (by rw [abs_neg, abs_of_nonneg (by omega)]; exact hk2)
  · rw [h, rne_zero, rne_zero]
  · obtain ⟨k, hk, hk1, hk2⟩ := rne_form h
    rw [hk]
    exact rne_exact _ _ (by rw [abs_of_nonneg (by omega)]; exact hk2)

/-- Rounding to 53 bits, ties to even, meets the assumptions. -/
def rneArith : Arith where
  fl := rne
  u := 2⁻¹ ^ 53
  u_pos := by positivity
  u_lt := by norm_num
  mono := rne_mono
  odd := rne_neg
  idem := rne_idem
  err := rne_err
  nat := rne_nat
  sum := plainSum rne
  zero := rne_zero

/-- A tenth is not a binary64 number. -/
example : rneArith.fl (1 / 10) = 3602879701896397 / 36028797018963968 := by decide +kernel

end Fp
end Verif
