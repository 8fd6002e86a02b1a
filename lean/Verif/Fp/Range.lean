import Verif.Fp.Sum

/-!
# The range of exponents of binary64

`binary64` and `binary64c` round to 53 bits without bounds on the exponent. Here is the rounding of IEEE
754, with gradual underflow and overflow (`nearest64`), and when the two agree.
-/

namespace Verif
namespace Fp

/-- A finite binary64 number (a signed zero is zero). -/
def IsF64 (x : ℚ) : Prop :=
  ∃ k e : ℤ, x = k * (2 : ℚ) ^ e ∧ |k| < 2 ^ 53 ∧ -1074 ≤ e ∧ e ≤ 971

/-- The result of an operation in IEEE 754 binary64 whose exact result is `x`, to nearest, ties to even:
gradual underflow below `2 ^ -1022`, and `none` (an infinity) from `2 ^ 1024` on. -/
def nearest64 (x : ℚ) : Option ℚ :=
  let e := max (Int.log 2 |x| - 52) (-1074)
  let v := roundEven (x / (2 : ℚ) ^ e) * (2 : ℚ) ^ e
  if |v| < (2 : ℚ) ^ (1024 : ℤ) then some v else none

/-- The floats of a Python before 3.12 (`comp = false`) or from 3.12 on (`comp = true`). Nothing is said about the
results of operations that overflow. -/
structure IsDouble (comp : Bool) (O : FOps) : Prop where
  fl : ∀ x v, nearest64 x = some v → O.fl x = v
  sum : O.sum = if comp then compSum O.fl else plainSum O.fl

/-- The arithmetic without bounds on the exponent of the same version of Python. -/
def unbounded (comp : Bool) : Rounding := if comp then binary64c else binary64

theorem unbounded_fl (comp : Bool) : (unbounded comp).fl = rne := by cases comp <;> rfl

theorem unbounded_sum (comp : Bool) :
    (unbounded comp).sum = if comp then compSum rne else plainSum rne := by cases comp <;> rfl

/-! ## Multiples of a power of two -/

/-- `x` is a multiple of `2 ^ e`. -/
def OnGrid (e : ℤ) (x : ℚ) : Prop := ∃ k : ℤ, x = k * (2 : ℚ) ^ e

theorem OnGrid.mono {e e' : ℤ} {x : ℚ} (h : OnGrid e x) (he : e' ≤ e) : OnGrid e' x := by
  obtain ⟨k, rfl⟩ := h
  obtain ⟨d, hd⟩ : ∃ d : ℕ, e = e' + d := ⟨(e - e').toNat, by omega⟩
  refine ⟨k * 2 ^ d, ?_⟩
  rw [hd, zpow_add₀ (by norm_num), zpow_natCast]
  push_cast
  ring

theorem OnGrid.add {e : ℤ} {x y : ℚ} (hx : OnGrid e x) (hy : OnGrid e y) : OnGrid e (x + y) := by
  obtain ⟨k, rfl⟩ := hx
  obtain ⟨l, rfl⟩ := hy
  exact ⟨k + l, by push_cast; ring⟩

theorem OnGrid.neg {e : ℤ} {x : ℚ} (hx : OnGrid e x) : OnGrid e (-x) := by
  obtain ⟨k, rfl⟩ := hx
  exact ⟨-k, by push_cast; ring⟩

theorem OnGrid.sub {e : ℤ} {x y : ℚ} (hx : OnGrid e x) (hy : OnGrid e y) : OnGrid e (x - y) := by
  rw [sub_eq_add_neg]; exact hx.add hy.neg

theorem OnGrid.abs {e : ℤ} {x : ℚ} (hx : OnGrid e x) : OnGrid e |x| := by
  rcases abs_choice x with h | h <;> rw [h]
  · exact hx
  · exact hx.neg

theorem OnGrid.int {e : ℤ} (he : e ≤ 0) (n : ℤ) : OnGrid e n :=
  OnGrid.mono ⟨n, by simp⟩ he

theorem OnGrid.zero {e : ℤ} : OnGrid e 0 := ⟨0, by simp⟩

theorem OnGrid.double {e : ℤ} {x : ℚ} (hx : OnGrid e x) : OnGrid e (x * 2) := by
  rw [mul_two]; exact hx.add hx

/-- Rounding keeps multiples of a power of two. -/
theorem OnGrid.rne {e : ℤ} {x : ℚ} (hx : OnGrid e x) : OnGrid e (rne x) := by
  rcases le_or_gt (Int.log 2 |x| - 52) e with h | h
  · obtain ⟨k, hk⟩ := hx.mono h
    have h1 : x / (2 : ℚ) ^ (Int.log 2 |x| - 52) = k := by
      rw [div_eq_iff (two_pow_pos _).ne']
      exact hk
    have : Fp.rne x = x := by
      unfold Fp.rne
      rw [h1, roundEven_int]
      exact hk.symm
    rw [this]
    exact hx
  · exact OnGrid.mono ⟨_, rfl⟩ h.le

/-- A number that is not too small is rounded to a multiple of a power of two. -/
theorem onGrid_rne_of_le {e : ℤ} {x : ℚ} (h : (2 : ℚ) ^ e ≤ |x|) : OnGrid (e - 52) (rne x) := by
  have hx : 0 < |x| := (two_pow_pos e).trans_le h
  have h1 : e ≤ Int.log 2 |x| := by
    obtain ⟨-, h2⟩ := log_bounds hx
    have := (zpow_lt_zpow_iff_right₀ (by norm_num : (1 : ℚ) < 2)).1 (h.trans_lt h2)
    omega
  exact OnGrid.mono ⟨_, rfl⟩ (by omega)

theorem abs_rne (x : ℚ) : |rne x| = rne |x| := by
  rcases le_total 0 x with h | h
  · rw [abs_of_nonneg h, abs_of_nonneg (rne_nonneg h)]
  · rw [abs_of_nonpos h, rne_neg, abs_of_nonpos]
    have := rne_mono h
    rwa [rne_zero] at this

/-- Rounding does not exceed 53-bit bounds. -/
theorem abs_rne_le {x : ℚ} {N k : ℕ} (hN : N ≤ 2 ^ 53) (h : |x| ≤ N * 2 ^ k) :
    |rne x| ≤ N * 2 ^ k := by
  rw [abs_rne]
  have h1 := rne_mono h
  have h2 := rne_exact N k (by rw [abs_of_nonneg (by omega)]; exact_mod_cast hN)
  rw [zpow_natCast] at h2
  rw [show ((N : ℚ) * 2 ^ k) = ((N : ℤ) : ℚ) * 2 ^ k by push_cast; rfl] at h1 ⊢
  rwa [h2] at h1

/-! ## When the bounds do not matter -/

theorem nearest64_eq {x : ℚ} (h : OnGrid (-1074) x ∨ (2 : ℚ) ^ (-1022 : ℤ) ≤ |x|)
    (hb : |x| ≤ (2 : ℚ) ^ (1023 : ℤ)) : nearest64 x = some (rne x) := by
  have hv : roundEven (x / (2 : ℚ) ^ max (Int.log 2 |x| - 52) (-1074)) *
      (2 : ℚ) ^ max (Int.log 2 |x| - 52) (-1074) = rne x := by
    rcases le_or_gt (-1074) (Int.log 2 |x| - 52) with h1 | h1
    · rw [max_eq_left h1]; rfl
    · rw [max_eq_right h1.le]
      have hx : 0 < |x| := by
        rcases (abs_nonneg x).eq_or_lt with h0 | h0
        · rw [← h0] at h1; norm_num at h1
        · exact h0
      obtain ⟨_, h2⟩ := log_bounds hx
      have h3 : |x| < (2 : ℚ) ^ (-1022 : ℤ) :=
        h2.trans_le (zpow_le_zpow_right₀ (by norm_num) (by omega))
      rcases h with ⟨k, hk⟩ | h
      · have h4 : x / (2 : ℚ) ^ (-1074 : ℤ) = k := by
          rw [div_eq_iff (two_pow_pos _).ne']; exact hk
        rw [h4, roundEven_int, ← hk]
        have h5 : |k| ≤ 2 ^ 53 := by
          by_contra hc
          push Not at hc
          have h6 : (2 : ℚ) ^ (53 : ℕ) * (2 : ℚ) ^ (-1074 : ℤ) ≤ |x| := by
            rw [hk, abs_mul, abs_of_pos (two_pow_pos _)]
            refine mul_le_mul_of_nonneg_right ?_ (two_pow_pos _).le
            exact_mod_cast hc.le
          rw [← zpow_natCast, ← zpow_add₀ (by norm_num)] at h6
          have h7 := (zpow_lt_zpow_iff_right₀ (by norm_num : (1 : ℚ) < 2)).1 (h6.trans_lt h3)
          norm_num at h7
        have := rne_exact k (-1074) h5
        rw [← hk] at this
        exact this.symm
      · exact absurd h (not_le.2 h3)
  unfold nearest64
  simp only [hv]
  rw [if_pos]
  have h1 : |x| ≤ ((1 : ℕ) : ℚ) * 2 ^ (1023 : ℕ) := by
    rw [Nat.cast_one, one_mul, ← zpow_natCast]; exact hb
  refine (abs_rne_le (by norm_num) h1).trans_lt ?_
  rw [Nat.cast_one, one_mul, ← zpow_natCast]
  exact zpow_lt_zpow_right₀ (by norm_num) (by norm_num)

/-- A multiple of the unit is not nearer than the rounded number. -/
theorem roundEven_grid_nearest (x : ℚ) (e : ℤ) {f : ℚ} (hf : OnGrid e f) :
    |roundEven (x / (2 : ℚ) ^ e) * (2 : ℚ) ^ e - x| ≤ |f - x| := by
  obtain ⟨n, rfl⟩ := hf
  have hp := two_pow_pos e
  have key : ∀ m : ℤ, |(m : ℚ) * (2 : ℚ) ^ e - x| = |(m : ℚ) - x / (2 : ℚ) ^ e| * (2 : ℚ) ^ e := by
    intro m
    rw [← abs_of_pos hp, ← abs_mul, abs_of_pos hp, sub_mul, div_mul_cancel₀ _ hp.ne']
  rw [key, key]
  exact mul_le_mul_of_nonneg_right (roundEven_nearest _ n) hp.le

/-- `nearest64` returns a binary64 number, and none is nearer. -/
theorem nearest64_nearest {x v : ℚ} (h : nearest64 x = some v) :
    IsF64 v ∧ ∀ f, IsF64 f → |v - x| ≤ |f - x| := by
  unfold nearest64 at h
  simp only at h
  split at h
  swap
  · cases h
  rename_i hb
  injection h with h
  rcases eq_or_ne x 0 with rfl | hx0
  · rw [zero_div, show (0 : ℚ) = ((0 : ℤ) : ℚ) by norm_num, roundEven_int, Int.cast_zero, zero_mul] at h
    subst h
    exact ⟨⟨0, 0, by norm_num⟩, fun f _ => by rw [sub_zero, abs_zero]; exact abs_nonneg _⟩
  have hx : 0 < |x| := abs_pos.2 hx0
  obtain ⟨hl, hu⟩ := log_bounds hx
  set L := Int.log 2 |x| with hL
  set e := max (L - 52) (-1074) with he
  have hp := two_pow_pos e
  set r := roundEven (x / (2 : ℚ) ^ e) with hr
  rw [h] at hb
  have habs : |x / (2 : ℚ) ^ e| = |x| / (2 : ℚ) ^ e := by rw [abs_div, abs_of_pos hp]
  have hrabs : |r| = roundEven (|x| / (2 : ℚ) ^ e) := by
    rw [← habs, hr]
    rcases le_total 0 (x / (2 : ℚ) ^ e) with h0 | h0
    · rw [abs_of_nonneg h0, abs_of_nonneg]
      have := roundEven_mono h0
      rwa [show (0 : ℚ) = ((0 : ℤ) : ℚ) by norm_num, roundEven_int] at this
    · rw [abs_of_nonpos h0, roundEven_neg, abs_of_nonpos]
      have := roundEven_mono h0
      rwa [show (0 : ℚ) = ((0 : ℤ) : ℚ) by norm_num, roundEven_int] at this
  have hr53 : |r| ≤ 2 ^ 53 := by
    have h1 : |x| / (2 : ℚ) ^ e ≤ (((2 ^ 53 : ℤ)) : ℚ) := by
      rw [div_le_iff₀ hp]
      refine hu.le.trans ?_
      rw [show (((2 ^ 53 : ℤ)) : ℚ) = (2 : ℚ) ^ (53 : ℤ) by norm_num, ← zpow_add₀ (by norm_num)]
      exact zpow_le_zpow_right₀ (by norm_num) (by omega)
    have := roundEven_mono h1
    rw [roundEven_int] at this
    rw [hrabs]
    exact this
  have hr52 : -1074 < e → 2 ^ 52 ≤ |r| := by
    intro h1
    have h2 : e = L - 52 := by omega
    have h3 : (((2 ^ 52 : ℤ)) : ℚ) ≤ |x| / (2 : ℚ) ^ e := by
      rw [le_div_iff₀ hp, h2]
      exact le_trans (le_of_eq (pow_52 _)) hl
    have := roundEven_mono h3
    rw [roundEven_int] at this
    rw [hrabs]
    exact this
  have hvabs : |v| = |(r : ℚ)| * (2 : ℚ) ^ e := by rw [← h, abs_mul, abs_of_pos hp]
  constructor
  · rcases eq_or_lt_of_le hr53 with h1 | h1
    · -- rounded up to the next power of two
      have h2 : e < 971 := by
        by_contra hc
        push Not at hc
        have h3 : (2 : ℚ) ^ (1024 : ℤ) ≤ |v| := by
          rw [hvabs, ← Int.cast_abs, h1, show (((2 ^ 53 : ℤ)) : ℚ) = (2 : ℚ) ^ (53 : ℤ) by norm_num,
            ← zpow_add₀ (by norm_num)]
          exact zpow_le_zpow_right₀ (by norm_num) (by omega)
        exact absurd hb (not_lt.2 h3)
      have h4 : r = 2 ^ 53 ∨ r = -2 ^ 53 := abs_eq (by norm_num) |>.1 h1
      rcases h4 with h4 | h4
      · refine ⟨2 ^ 52, e + 1, ?_, by norm_num, by omega, by omega⟩
        rw [← h, h4, zpow_add₀ (by norm_num)]
        push_cast
        ring
      · refine ⟨-2 ^ 52, e + 1, ?_, by norm_num, by omega, by omega⟩
        rw [← h, h4, zpow_add₀ (by norm_num)]
        push_cast
        ring
    · refine ⟨r, e, h.symm, h1, by omega, ?_⟩
      by_contra hc
      push Not at hc
      have h2 := hr52 (by omega)
      have h3 : (2 : ℚ) ^ (1024 : ℤ) ≤ |v| := by
        rw [hvabs, ← Int.cast_abs]
        calc (2 : ℚ) ^ (1024 : ℤ) ≤ (2 : ℚ) ^ (52 + e) := zpow_le_zpow_right₀ (by norm_num) (by omega)
          _ = (((2 ^ 52 : ℤ)) : ℚ) * (2 : ℚ) ^ e := by rw [zpow_add₀ (by norm_num)]; norm_num
          _ ≤ _ := mul_le_mul_of_nonneg_right (by exact_mod_cast h2) hp.le
      exact absurd hb (not_lt.2 h3)
  · rintro f ⟨k, e', hf, hk, h1, h2⟩
    rw [← h]
    rcases le_or_gt e e' with h3 | h3
    · exact roundEven_grid_nearest x e (OnGrid.mono ⟨k, hf⟩ h3)
    · have h4 : e = L - 52 := by omega
      have h5 : |f| ≤ (2 : ℚ) ^ L := by
        rw [hf, abs_mul, abs_of_pos (two_pow_pos _)]
        calc |(k : ℚ)| * (2 : ℚ) ^ e' ≤ (2 : ℚ) ^ (53 : ℤ) * (2 : ℚ) ^ e' := by
              refine mul_le_mul_of_nonneg_right ?_ (two_pow_pos _).le
              have : |(k : ℚ)| ≤ ((2 ^ 53 : ℤ) : ℚ) := by exact_mod_cast hk.le
              refine this.trans (le_of_eq ?_)
              norm_num
          _ = (2 : ℚ) ^ (53 + e') := (zpow_add₀ (by norm_num) _ _).symm
          _ ≤ _ := zpow_le_zpow_right₀ (by norm_num) (by omega)
      have h6 : OnGrid e ((2 : ℚ) ^ L) := OnGrid.mono ⟨1, by rw [Int.cast_one, one_mul]⟩ (by omega)
      have h7 : |x| - |f| ≤ |f - x| := by
        rw [abs_sub_comm]
        exact abs_sub_abs_le_abs_sub x f
      rcases le_total 0 x with h8 | h8
      · refine (roundEven_grid_nearest x e h6).trans ?_
        rw [abs_of_nonneg h8] at hl h7
        rw [abs_of_nonpos (by linarith)]
        linarith
      · refine (roundEven_grid_nearest x e h6.neg).trans ?_
        rw [abs_of_nonpos h8] at hl h7
        rw [abs_of_nonneg (by linarith)]
        linarith

/-! ## Bounded multiples -/

/-- A multiple of `2 ^ e` that is at most `N * 2 ^ k`. -/
structure Bd (e : ℤ) (k N : ℕ) (x : ℚ) : Prop where
  grid : OnGrid e x
  le : |x| ≤ N * 2 ^ k

namespace Bd

variable {e : ℤ} {k M N : ℕ} {x y : ℚ}

theorem mono (h : Bd e k M x) (hN : M ≤ N) : Bd e k N x :=
  ⟨h.grid, h.le.trans (mul_le_mul_of_nonneg_right (by exact_mod_cast hN) (by positivity))⟩

theorem add (hx : Bd e k M x) (hy : Bd e k N y) : Bd e k (M + N) (x + y) := by
  refine ⟨hx.grid.add hy.grid, (abs_add_le _ _).trans ?_⟩
  push_cast
  rw [add_mul]
  exact add_le_add hx.le hy.le

theorem neg (hx : Bd e k N x) : Bd e k N (-x) := ⟨hx.grid.neg, by rw [abs_neg]; exact hx.le⟩

theorem sub (hx : Bd e k M x) (hy : Bd e k N y) : Bd e k (M + N) (x - y) := by
  rw [sub_eq_add_neg]; exact hx.add hy.neg

theorem abs (hx : Bd e k N x) : Bd e k N |x| := ⟨hx.grid.abs, by rw [abs_abs]; exact hx.le⟩

theorem min (hx : Bd e k N x) (hy : Bd e k N y) : Bd e k N (min x y) := by
  rcases min_choice x y with h | h <;> rw [h] <;> assumption

theorem nat (he : e ≤ 0) (n : ℕ) : Bd e k n n := by
  refine ⟨OnGrid.int he n, ?_⟩
  rw [abs_of_nonneg (Nat.cast_nonneg n)]
  exact le_mul_of_one_le_right (Nat.cast_nonneg n) (one_le_pow₀ (by norm_num))

theorem one (he : e ≤ 0) : Bd e k 1 1 := by have := nat (k := k) he 1; rwa [Nat.cast_one] at this

theorem zero : Bd e k N 0 := ⟨OnGrid.zero, by rw [abs_zero]; positivity⟩

theorem grid_mono {e' : ℤ} (h : Bd e k N x) (he : e' ≤ e) : Bd e' k N x := ⟨h.grid.mono he, h.le⟩

theorem rne (h : Bd e k N x) (hN : N ≤ 2 ^ 53) : Bd e k N (rne x) :=
  ⟨h.grid.rne, abs_rne_le hN h.le⟩

theorem double (h : Bd e k N x) : Bd e k (N + N) (x * 2) := by rw [mul_two]; exact h.add h

end Bd

variable {comp : Bool} {O : FOps}

/-- Sums and differences within the bounds are rounded as without bounds on the exponent. -/
theorem IsDouble.fl_eq (hO : IsDouble comp O) {e : ℤ} {k N : ℕ} {x : ℚ} (he : -1074 ≤ e)
    (hk : k ≤ 970) (hN : N ≤ 2 ^ 53) (h : Bd e k N x) : O.fl x = rne x := by
  refine hO.fl x _ (nearest64_eq (.inl (h.grid.mono he)) (h.le.trans ?_))
  calc (N : ℚ) * 2 ^ k ≤ 2 ^ 53 * 2 ^ 970 := by
        refine mul_le_mul (by exact_mod_cast hN) (pow_le_pow_right₀ (by norm_num) hk) (by positivity)
          (by positivity)
    _ = (2 : ℚ) ^ (1023 : ℤ) := by
        rw [← pow_add, ← zpow_natCast]; norm_num

/-- Quotients by integers. -/
theorem IsDouble.quot_eq (hO : IsDouble comp O) {e : ℤ} {k N : ℕ} {x : ℚ} {d : ℤ} (he : -900 ≤ e)
    (hk : k ≤ 970) (hN : N ≤ 2 ^ 53) (h : Bd e k N x) (hd : |d| ≤ 2 ^ 53) :
    O.fl (x / d) = rne (x / d) ∧ Bd (e - 106) k N (rne (x / d)) := by
  rcases eq_or_ne d 0 with rfl | hd0
  · rw [Int.cast_zero, div_zero, O.zero, rne_zero]
    exact ⟨rfl, Bd.zero⟩
  rcases eq_or_ne x 0 with rfl | hx0
  · rw [zero_div, O.zero, rne_zero]
    exact ⟨rfl, Bd.zero⟩
  have hd1 : (1 : ℚ) ≤ |(d : ℚ)| := by
    rw [← Int.cast_abs]
    exact_mod_cast Int.one_le_abs hd0
  have hd2 : |(d : ℚ)| ≤ (2 : ℚ) ^ (53 : ℤ) := by
    rw [← Int.cast_abs, show (2 : ℚ) ^ (53 : ℤ) = ((2 ^ 53 : ℤ) : ℚ) by norm_num]
    exact_mod_cast hd
  have hx1 : (2 : ℚ) ^ e ≤ |x| := by
    obtain ⟨n, hn⟩ := h.grid
    rw [hn, abs_mul, abs_of_pos (two_pow_pos e)]
    refine le_mul_of_one_le_left (two_pow_pos e).le ?_
    rw [← Int.cast_abs]
    have : n ≠ 0 := by rintro rfl; rw [hn] at hx0; simp at hx0
    exact_mod_cast Int.one_le_abs this
  have hle : |x / d| ≤ N * 2 ^ k := by
    rw [abs_div]
    exact (div_le_self (abs_nonneg x) hd1).trans h.le
  have hge : (2 : ℚ) ^ (e - 53) ≤ |x / d| := by
    rw [abs_div, le_div_iff₀ (by linarith), zpow_sub₀ (by norm_num)]
    calc (2 : ℚ) ^ e / 2 ^ (53 : ℤ) * |(d : ℚ)| ≤ (2 : ℚ) ^ e / 2 ^ (53 : ℤ) * 2 ^ (53 : ℤ) :=
          mul_le_mul_of_nonneg_left hd2 (div_nonneg (two_pow_pos e).le (two_pow_pos 53).le)
      _ = (2 : ℚ) ^ e := div_mul_cancel₀ _ (two_pow_pos 53).ne'
      _ ≤ _ := hx1
  constructor
  · refine hO.fl _ _ (nearest64_eq (.inr (le_trans ?_ hge)) (hle.trans ?_))
    · exact zpow_le_zpow_right₀ (by norm_num) (by omega)
    · calc (N : ℚ) * 2 ^ k ≤ 2 ^ 53 * 2 ^ 970 := by
            refine mul_le_mul (by exact_mod_cast hN) (pow_le_pow_right₀ (by norm_num) hk)
              (by positivity) (by positivity)
        _ = (2 : ℚ) ^ (1023 : ℤ) := by
            rw [← pow_add, ← zpow_natCast]; norm_num
  · exact ⟨(onGrid_rne_of_le hge).mono (by omega), abs_rne_le hN hle⟩

/-! ## Overflow -/

theorem rne_top : rne ((2 : ℚ) ^ 1024 - 2 ^ 970) = 2 ^ 1024 := by decide +kernel

theorem two_pow_1024 : (2 : ℚ) ^ 1024 = 18014398509481984 * 2 ^ 970 := by
  rw [show (1024 : ℕ) = 54 + 970 from rfl, pow_add]; norm_num

theorem two_pow_1023 : (2 : ℚ) ^ 1023 = 9007199254740992 * 2 ^ 970 := by
  rw [show (1023 : ℕ) = 53 + 970 from rfl, pow_add]; norm_num

theorem two_pow_971 : (2 : ℚ) ^ (971 : ℤ) = 2 * 2 ^ 970 := by
  rw [show (971 : ℤ) = ((971 : ℕ) : ℤ) from rfl, zpow_natCast, show (971 : ℕ) = 1 + 970 from rfl, pow_add,
    pow_one]

theorem rne_overflow {y : ℚ} (hy : 0 ≤ y) : (2 : ℚ) ^ 1024 ≤ rne y ↔ (2 : ℚ) ^ 1024 - 2 ^ 970 ≤ y := by
  constructor
  · intro h
    by_contra hc
    rw [not_le] at hc
    have hP : (0 : ℚ) < 2 ^ 970 := by positivity
    rcases le_or_gt y (2 ^ 1023) with h1 | h1
    · have h2 := abs_rne_le (x := y) (N := 1) (k := 1023) (by norm_num)
        (by rw [abs_of_nonneg hy, Nat.cast_one, one_mul]; exact h1)
      have h3 := (le_abs_self (rne y)).trans h2
      rw [Nat.cast_one, one_mul, two_pow_1023] at h3
      rw [two_pow_1024] at h
      generalize (2 : ℚ) ^ 970 = P at *
      linarith
    · have hlog : Int.log 2 |y| = 1023 := by
        rw [abs_of_nonneg hy]
        obtain ⟨b1, b2⟩ := log_bounds (x := y) (lt_of_lt_of_le (by positivity) h1.le)
        have g1 : (2 : ℚ) ^ (1023 : ℤ) < (2 : ℚ) ^ (Int.log 2 y + 1) := by
          refine lt_trans ?_ b2
          rw [show (1023 : ℤ) = ((1023 : ℕ) : ℤ) from rfl, zpow_natCast]
          exact h1
        have g2 : (2 : ℚ) ^ (Int.log 2 y) < (2 : ℚ) ^ (1024 : ℤ) := by
          refine lt_of_le_of_lt b1 (hc.trans ?_)
          rw [show (1024 : ℤ) = ((1024 : ℕ) : ℤ) from rfl, zpow_natCast]
          exact sub_lt_self _ hP
        have := (zpow_lt_zpow_iff_right₀ (by norm_num : (1 : ℚ) < 2)).1 g1
        have := (zpow_lt_zpow_iff_right₀ (by norm_num : (1 : ℚ) < 2)).1 g2
        omega
      have hr : rne y = roundEven (y / (2 : ℚ) ^ (971 : ℤ)) * (2 : ℚ) ^ (971 : ℤ) := by
        unfold rne; rw [hlog]; rfl
      rw [two_pow_971] at hr
      rw [two_pow_1024] at h hc
      clear h1
      generalize (2 : ℚ) ^ 970 = P at *
      have hq : y / (2 * P) < 9007199254740992 - 1 / 2 := by
        rw [div_lt_iff₀ (by linarith)]
        linarith
      have he := (abs_le.1 (roundEven_err (y / (2 * P)))).2
      have hlt : (roundEven (y / (2 * P)) : ℚ) < 9007199254740992 := by linarith
      have : rne y < 9007199254740992 * (2 * P) := by
        rw [hr]; exact mul_lt_mul_of_pos_right hlt (by linarith)
      linarith
  · intro h
    have := rne_mono h
    rwa [rne_top] at this

theorem nearest64_none (x : ℚ) :
    nearest64 x = none ↔ (2 : ℚ) ^ 1024 - 2 ^ 970 ≤ |x| := by
  have hP : (1 : ℚ) ≤ 2 ^ 970 := one_le_pow₀ (by norm_num)
  have hT : (1 : ℚ) ≤ 2 ^ 1024 - 2 ^ 970 := by
    rw [two_pow_1024]
    generalize (2 : ℚ) ^ 970 = P at *
    linarith
  have e1 : ((2 : ℚ) ^ (1024 : ℤ)) = 2 ^ 1024 := by
    rw [show (1024 : ℤ) = ((1024 : ℕ) : ℤ) from rfl, zpow_natCast]
  unfold nearest64
  simp only
  rcases le_or_gt (-1074) (Int.log 2 |x| - 52) with h1 | h1
  · rw [max_eq_left h1]
    have := rne_overflow (abs_nonneg x)
    rw [← abs_rne] at this
    rw [← this, e1]
    change (if |rne x| < 2 ^ 1024 then some (rne x) else none) = none ↔ _
    split
    · rename_i h; simp [h]
    · rename_i h; simpa using h
  · rw [max_eq_right h1.le]
    have hx : |x| < 1 := by
      rcases (abs_nonneg x).eq_or_lt with h0 | h0
      · rw [← h0]; norm_num
      · refine (log_bounds h0).2.trans_le ?_
        rw [← zpow_zero (2 : ℚ)]
        exact zpow_le_zpow_right₀ (by norm_num) (by omega)
    have hp := two_pow_pos (-1074)
    have hp1 : (2 : ℚ) ^ (-1074 : ℤ) ≤ 1 := by
      rw [← zpow_zero (2 : ℚ)]; exact zpow_le_zpow_right₀ (by norm_num) (by norm_num)
    have hv : |(roundEven (x / (2 : ℚ) ^ (-1074 : ℤ)) : ℚ) * (2 : ℚ) ^ (-1074 : ℤ)| < (2 : ℚ) ^ (1024 : ℤ) := by
      have he := roundEven_err (x / (2 : ℚ) ^ (-1074 : ℤ))
      have h3 : |(roundEven (x / (2 : ℚ) ^ (-1074 : ℤ)) : ℚ) * (2 : ℚ) ^ (-1074 : ℤ) - x| ≤
          1 / 2 * (2 : ℚ) ^ (-1074 : ℤ) := by
        have : (roundEven (x / (2 : ℚ) ^ (-1074 : ℤ)) : ℚ) * (2 : ℚ) ^ (-1074 : ℤ) - x =
            ((roundEven (x / (2 : ℚ) ^ (-1074 : ℤ)) : ℚ) - x / (2 : ℚ) ^ (-1074 : ℤ)) *
              (2 : ℚ) ^ (-1074 : ℤ) := by
          rw [sub_mul, div_mul_cancel₀ _ hp.ne']
        rw [this, abs_mul, abs_of_pos hp]
        exact mul_le_mul_of_nonneg_right he hp.le
      have h4 := abs_sub_abs_le_abs_sub
        ((roundEven (x / (2 : ℚ) ^ (-1074 : ℤ)) : ℚ) * (2 : ℚ) ^ (-1074 : ℤ)) x
      rw [e1]
      clear e1
      generalize (2 : ℚ) ^ 1024 = Q at *
      generalize (2 : ℚ) ^ 970 = P at *
      generalize (2 : ℚ) ^ (-1074 : ℤ) = S at *
      linarith
    rw [if_pos hv]
    constructor
    · intro h; cases h
    · intro h; exact absurd (hT.trans h) (not_le.2 hx)

end Fp
end Verif
