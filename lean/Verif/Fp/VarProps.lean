import Verif.Fp.VarWhole

/-!
# Properties C147–C151: `emd_1d_slow`, `emd_1d_hybrid`, `emd_1d_old` in floating point arithmetic

As in `Verif.Fp.Props`, `R : Rounding` is any arithmetic that rounds the exact result of each
operation, `R.u` its unit roundoff, `R.sumMax` a number of terms up to which its `sum` is as accurate
as adding from left to right; `binary64` and `binary64c` are the arithmetic of Python's `float` before
and from version 3.12, where `sum` compensates (`sumMax` is infinite and 2^20). `IsEmd xs ys e`
says that `e` is the least cost over all transport plans (`Verif.Emd.Spec`), `Spread1` that every
point of one list is within 1 of every point of the other (as are positions in `[0, 1]`).
-/

namespace Verif
namespace Fp

open EmdSpec

variable (R : Rounding)

theorem Rel.err {R : Rounding} {k : ℕ} {c v e : ℚ} (h : Rel R k c v e) (hk : (k : ℚ) * R.u ≤ 1 / 2)
    (h0 : 0 ≤ e + c) : |v - e| ≤ 2 * k * R.u * (e + c) := by
  have hu := R.u_pos
  have h1 := pow_upper hu.le hk
  have h2 := pow_lower (L := k) R.u_lt.le
  obtain ⟨a, b⟩ := h
  have ku : 0 ≤ (k : ℚ) * R.u := by positivity
  rw [abs_le]
  constructor
  · have := mul_le_mul_of_nonneg_right h2 h0
    nlinarith
  · have := mul_le_mul_of_nonneg_right h1 h0
    linarith

/-- C147. `emd_1d_slow` in floating point arithmetic: it returns, its result is the least cost up to
a relative error that depends on the shorter list only, lies in the range of the exact distance, and
is zero exactly when both lists hold the same points. -/
theorem C147_slow_float {xs ys : List ℚ} (hs : Spread1 xs ys)
    (hN : xs.length + ys.length ≤ 2 ^ 53)
    (hM : ((xs.length + ys.length : ℕ) : ℕ∞) ≤ R.sumMax) {e : ℚ} (he : IsEmd xs ys e) :
    ∃ v, emdSlowF R xs ys = .ok v ∧
      (1 - R.u) ^ (min xs.length ys.length + 2) * e ≤ v ∧
      v ≤ (1 + R.u) ^ (min xs.length ys.length + 2) * e ∧
      |(xs.length : ℚ) - ys.length| ≤ v ∧ v ≤ max (xs.length : ℚ) ys.length ∧
      (v = 0 ↔ xs.Perm ys) := by
  obtain ⟨v, ev, h⟩ := emdSlowF_ok (R := R) hs hM
  obtain ⟨b1, b2⟩ := emdSlowF_bnd hN hM ev
  rw [← emd_unique he]
  have hu := R.u_lt
  obtain ⟨h1, h2⟩ := h
  simp only [add_zero] at h1 h2
  refine ⟨v, ev, h1, h2, b1, b2, ?_⟩
  rw [← emd_eq_zero_iff]
  constructor
  · intro h
    rw [h] at h1
    have p : 0 < (1 - R.u) ^ (min xs.length ys.length + 2) := pow_pos (by linarith) _
    have := emd_nonneg xs ys
    by_contra hne
    have : 0 < emd xs ys := lt_of_le_of_ne this (Ne.symm hne)
    nlinarith [mul_pos p this]
  · intro h
    rw [h] at h1 h2
    simp only [mul_zero] at h1 h2
    exact le_antisymm h2 h1

example : emdSlowF binary64 [1 / 10, 4 / 5, 9 / 10] [1 / 5, 3 / 10] =
    .ok (3602879701896397 / 2251799813685248) := by decide +kernel

/-- C148. `emd_1d_hybrid` in floating point arithmetic: it returns; its result differs from the least
cost by at most `2 (2 L + 5) u` times that cost plus one, where `L` is the total number of points; it
lies in the range of the exact distance; it is zero when both lists hold the same points. -/
theorem C148_hybrid_float {xs ys : List ℚ} (hs : Spread1 xs ys) (hu : R.u ≤ 1 / 2)
    (hM : ((xs.length + ys.length : ℕ) : ℕ∞) ≤ R.sumMax) {e : ℚ} (he : IsEmd xs ys e) :
    ∃ v, emdHybridF R xs ys = .ok v ∧ 0 ≤ v ∧
      (((2 * (xs.length + ys.length) + 5 : ℕ) : ℚ) * R.u ≤ 1 / 2 →
        |v - e| ≤ 2 * ((2 * (xs.length + ys.length) + 5 : ℕ) : ℚ) * R.u * (e + 1)) ∧
      (xs.length + ys.length < 2 ^ 53 →
        |(xs.length : ℚ) - ys.length| ≤ v ∧ v ≤ max (xs.length : ℚ) ys.length) ∧
      (xs.Perm ys → v = 0) := by
  obtain ⟨v, ev, h0, h⟩ := emdHybridF_ok (R := R) hu hs hM
  rw [← emd_unique he]
  refine ⟨v, ev, h0, fun hk => h.err hk (by linarith [emd_nonneg xs ys]), fun hN => ?_, fun hp => ?_⟩
  · exact emdShellF_bnd hM (fun xs ys v h1 h2 h3 _ h4 => hybridMainF_bnd h1 h2 (by omega) h4) hs
      (by omega) le_rfl ev
  · unfold emdHybridF at ev
    rw [emdShellF_self _ hp] at ev
    injection ev with ev
    exact ev.symm

example : emdHybridF binary64 [1 / 10, 4 / 5, 9 / 10] [1 / 5, 3 / 10] =
    .ok (3602879701896397 / 2251799813685248) ∧
    emdDpF binary64 [1 / 3] [1 / 10] ≠ emdHybridF binary64 [1 / 3] [1 / 10] := by
  constructor <;> decide +kernel

/-- C149. `emd_1d_old` in floating point arithmetic: the same, with the number of points in the
shorter list in place of one (every component subtracts the number of its points again). -/
theorem C149_old_float {xs ys : List ℚ} (hs : Spread1 xs ys) (hu : R.u ≤ 1 / 2)
    (hN : xs.length + ys.length < 2 ^ 53)
    (hM : ((xs.length + ys.length : ℕ) : ℕ∞) ≤ R.sumMax) {e : ℚ} (he : IsEmd xs ys e) :
    ∃ v, emdOldF R xs ys = .ok v ∧
      (((2 * (xs.length + ys.length) + 5 : ℕ) : ℚ) * R.u ≤ 1 / 2 →
        |v - e| ≤ 2 * ((2 * (xs.length + ys.length) + 5 : ℕ) : ℚ) * R.u *
          (e + (min xs.length ys.length : ℕ))) ∧
      |(xs.length : ℚ) - ys.length| ≤ v ∧ v ≤ max (xs.length : ℚ) ys.length ∧
      (xs.Perm ys → v = 0) := by
  obtain ⟨v, ev, h0, h⟩ := emdOldF_ok (R := R) hu hs (by omega) hM
  rw [← emd_unique he]
  obtain ⟨b1, b2⟩ := emdShellF_bnd hM (fun xs ys v h1 h2 h3 h3' h4 => oldMainF_bnd hu h1 h2 (by omega)
    (le_trans (Nat.cast_le.2 h3') hM) h4) hs (by omega) le_rfl ev
  refine ⟨v, ev, fun hk => h.err hk (add_nonneg (emd_nonneg xs ys) (by positivity)), b1, b2,
    fun hp => ?_⟩
  unfold emdOldF at ev
  rw [emdShellF_self _ hp] at ev
  injection ev with ev
  exact ev.symm

example : emdOldF binary64 [1 / 10, 4 / 5, 9 / 10] [1 / 5, 3 / 10] =
    .ok (3602879701896397 / 2251799813685248) := by decide +kernel

/-- C150. All three are exactly symmetric and do not depend on the order of the points, whatever the
points, also in floating point arithmetic. -/
theorem C150_float_symmetric {xs xs' ys ys' : List ℚ} (hx : xs.Perm xs') (hy : ys.Perm ys') :
    (emdSlowF R xs ys = emdSlowF R xs' ys' ∧ emdSlowF R xs ys = emdSlowF R ys xs) ∧
    (emdHybridF R xs ys = emdHybridF R xs' ys' ∧ emdHybridF R xs ys = emdHybridF R ys xs) ∧
    (emdOldF R xs ys = emdOldF R xs' ys' ∧ emdOldF R xs ys = emdOldF R ys xs) :=
  ⟨⟨emdSlowF_perm hx hy, emdSlowF_comm xs ys⟩,
    ⟨emdShellF_perm _ hx hy, emdShellF_comm _ xs ys⟩,
    ⟨emdShellF_perm _ hx hy, emdShellF_comm _ xs ys⟩⟩

example : emdHybridF binary64 [9 / 10, 1 / 10, 4 / 5] [3 / 10, 1 / 5] =
    emdHybridF binary64 [1 / 5, 3 / 10] [4 / 5, 9 / 10, 1 / 10] := by decide +kernel

/-- C150. Unlike `emd_1d_dp` and `emd_1d_slow`, `emd_1d_hybrid` and `emd_1d_old` may return 0 for
different points: `min + len - 1` cancels a small distance. -/
theorem C150_float_zero_not_equal :
    ∃ x y : ℚ, x ≠ y ∧ emdHybridF binary64 [x] [y] = .ok 0 ∧ emdOldF binary64 [x] [y] = .ok 0 ∧
      emdSlowF binary64 [x] [y] ≠ .ok 0 ∧ emdDpF binary64 [x] [y] ≠ .ok 0 ∧
      binary64.fl x = x ∧ binary64.fl y = y := by
  refine ⟨0, 1 / 2 ^ 60, by norm_num, ?_, ?_, ?_, ?_, ?_, ?_⟩ <;> decide +kernel

/-- Both versions of Python use the same rounding. -/
theorem python_u {R : Rounding} (hR : R = binary64 ∨ R = binary64c) : R.u = 1 / 2 ^ 53 := by
  rcases hR with rfl | rfl <;> norm_num [binary64, binary64c, Arith.plain, rneArith]

theorem python_sumMax {R : Rounding} (hR : R = binary64 ∨ R = binary64c) {n : ℕ} (hn : n ≤ 2 ^ 20) :
    (n : ℕ∞) ≤ R.sumMax := by
  rcases hR with rfl | rfl
  · exact le_top
  · change (n : ℕ∞) ≤ ((2 ^ 20 : ℕ) : ℕ∞)
    exact Nat.cast_le.2 hn

/-- The four implementations on positions in the unit interval, at most 1000 points in total. -/
theorem four_close (hR : R = binary64 ∨ R = binary64c) {xs ys : List ℚ} (hx : ∀ x ∈ xs, 0 ≤ x ∧ x ≤ 1) (hy : ∀ y ∈ ys, 0 ≤ y ∧ y ≤ 1)
    (hN : xs.length + ys.length ≤ 1000) :
    ∃ s d h o, emdSlowF R xs ys = .ok s ∧ emdDpF R xs ys = .ok d ∧
      emdHybridF R xs ys = .ok h ∧ emdOldF R xs ys = .ok o ∧
      |o - s| ≤ 9 / 10 ^ 10 ∧ |o - d| ≤ 9 / 10 ^ 10 ∧ |o - h| ≤ 9 / 10 ^ 10 ∧
      |s - d| ≤ 9 / 10 ^ 10 ∧ |s - h| ≤ 9 / 10 ^ 10 ∧ |d - h| ≤ 9 / 10 ^ 10 := by
  have hs : Spread1 xs ys := by
    intro x h y h'
    have := hx x h
    have := hy y h'
    rw [abs_le]; constructor <;> linarith
  have hu : R.u = 1 / 2 ^ 53 := python_u hR
  have hM : ((xs.length + ys.length : ℕ) : ℕ∞) ≤ R.sumMax := python_sumMax hR (by omega)
  have hu2 : R.u ≤ 1 / 2 := by rw [hu]; norm_num
  have e0 := emd_nonneg xs ys
  have em := emd_le_max hs
  have hNq : (xs.length : ℚ) + ys.length ≤ 1000 := by exact_mod_cast hN
  have hxq : (0 : ℚ) ≤ xs.length := by positivity
  have hyq : (0 : ℚ) ≤ ys.length := by positivity
  rw [Nat.cast_max] at em
  have em1 : emd xs ys ≤ 1000 := em.trans (max_le (by linarith) (by linarith))
  have em2 : emd xs ys + (min xs.length ys.length : ℕ) ≤ 1000 := by
    have : max (xs.length : ℚ) ys.length + min (xs.length : ℚ) ys.length = xs.length + ys.length :=
      max_add_min _ _
    push_cast
    linarith
  -- a bound for every implementation
  have small : ∀ {k : ℕ} {c v : ℚ}, Rel R k c v (emd xs ys) → k ≤ 2005 →
      0 ≤ emd xs ys + c → emd xs ys + c ≤ 1001 → |v - emd xs ys| ≤ 45 / 10 ^ 11 := by
    intro k c v h hk h0 h1
    have hkq : (k : ℚ) ≤ 2005 := by exact_mod_cast hk
    have hk0 : (0 : ℚ) ≤ k := by positivity
    have := h.err (by rw [hu]; nlinarith) h0
    refine this.trans ?_
    rw [hu]
    have : (k : ℚ) * (emd xs ys + c) ≤ 2005 * 1001 := mul_le_mul hkq h1 h0 (by norm_num)
    nlinarith
  obtain ⟨s, es, rs⟩ := emdSlowF_ok (R := R) hs hM
  obtain ⟨h, eh, -, rh⟩ := emdHybridF_ok (R := R) hu2 hs hM
  obtain ⟨o, eo, -, ro⟩ := emdOldF_ok (R := R) hu2 hs (by omega) hM
  have rd : Rel R (xs.length + ys.length) 0 (emdF R xs ys) (emd xs ys) := by
    unfold Rel
    simp only [add_zero]
    exact ⟨emdF_lower xs ys, emdF_upper xs ys⟩
  have as := abs_le.1 (small rs (by omega) (by linarith) (by linarith))
  have ad := abs_le.1 (small rd (by omega) (by linarith) (by linarith))
  have ah := abs_le.1 (small rh (by omega) (by linarith) (by linarith))
  have ao := abs_le.1 (small ro (by omega) (add_nonneg e0 (by positivity)) (by linarith))
  refine ⟨s, emdF R xs ys, h, o, es, emdDpF_ok xs ys, eh, eo, ?_, ?_, ?_, ?_, ?_, ?_⟩ <;>
  · rw [abs_le]
    constructor <;> linarith [as.1, as.2, ad.1, ad.2, ah.1, ah.2, ao.1, ao.2]

/-- C151. The tolerance of the repository's tests: on positions in the unit interval, at most 1000
in total, the results of the four implementations in binary64 differ, in either version of Python, by less than `1e-9`. -/
theorem C151_float_agree (hR : R = binary64 ∨ R = binary64c) {xs ys : List ℚ} (hx : ∀ x ∈ xs, 0 ≤ x ∧ x ≤ 1)
    (hy : ∀ y ∈ ys, 0 ≤ y ∧ y ≤ 1) (hN : xs.length + ys.length ≤ 1000) :
    ∃ s d h o, emdSlowF R xs ys = .ok s ∧ emdDpF R xs ys = .ok d ∧
      emdHybridF R xs ys = .ok h ∧ emdOldF R xs ys = .ok o ∧
      |o - s| < 1 / 10 ^ 9 ∧ |o - d| < 1 / 10 ^ 9 ∧ |o - h| < 1 / 10 ^ 9 ∧
      |s - d| < 1 / 10 ^ 9 ∧ |s - h| < 1 / 10 ^ 9 ∧ |d - h| < 1 / 10 ^ 9 := by
  obtain ⟨s, d, h, o, h1, h2, h3, h4, h5, h6, h7, h8, h9, h10⟩ := four_close R hR hx hy hN
  have : (9 : ℚ) / 10 ^ 10 < 1 / 10 ^ 9 := by norm_num
  exact ⟨s, d, h, o, h1, h2, h3, h4, by linarith, by linarith, by linarith, by linarith, by linarith,
    by linarith⟩

theorem isclose_of_le (hR : R = binary64 ∨ R = binary64c) {a b : ℚ} (h : |a - b| ≤ 9 / 10 ^ 10) :
    iscloseF R (R.fl (1 / 10 ^ 9)) a b = true := by
  have hu : R.u = 1 / 2 ^ 53 := python_u hR
  have h1 := fl_upper (R := R) (abs_nonneg (b - a))
  have h2 := fl_lower (R := R) (x := 1 / 10 ^ 9) (by norm_num)
  rw [← abs_fl, hu] at h1
  rw [hu] at h2
  rw [abs_sub_comm] at h
  have : |R.fl (b - a)| ≤ R.fl (1 / 10 ^ 9) := by
    have h3 := mul_le_mul_of_nonneg_left h (by norm_num : (0 : ℚ) ≤ 1 + 1 / 2 ^ 53)
    refine (h1.trans h3).trans (le_trans ?_ h2)
    norm_num
  unfold iscloseF
  split_ifs
  · rfl
  · simp only [this, decide_true, Bool.or_true]

/-- C151. So the repository's own comparison of the implementations, with its default tolerance,
never fails on such positions: it returns the result of `emd_1d_old`. Positions outside the unit
interval are rejected by the stricter of the two versions. -/
theorem C151_check_passes (hR : R = binary64 ∨ R = binary64c) (inRange : Bool) {xs ys : List ℚ} :
    ((∀ x ∈ xs, 0 ≤ x ∧ x ≤ 1) ∧ (∀ y ∈ ys, 0 ≤ y ∧ y ≤ 1) → xs.length + ys.length ≤ 1000 →
      ∃ v, emdOldF R xs ys = .ok v ∧
        checkEmdF R inRange (R.fl (1 / 10 ^ 9)) xs ys = .ok v) ∧
    (¬ ((∀ x ∈ xs, 0 ≤ x ∧ x ≤ 1) ∧ (∀ y ∈ ys, 0 ≤ y ∧ y ≤ 1)) →
      checkEmdF R true (R.fl (1 / 10 ^ 9)) xs ys = .error .assertionError) := by
  have hall : (xs.all (fun x => 0 ≤ x ∧ x ≤ 1) && ys.all (fun y => 0 ≤ y ∧ y ≤ 1)) = true ↔
      (∀ x ∈ xs, 0 ≤ x ∧ x ≤ 1) ∧ (∀ y ∈ ys, 0 ≤ y ∧ y ≤ 1) := by
    simp [List.all_eq_true]
  constructor
  · rintro ⟨hx, hy⟩ hN
    obtain ⟨s, d, h, o, h1, h2, h3, h4, h5, h6, h7, -⟩ := four_close R hR hx hy hN
    refine ⟨o, h4, ?_⟩
    unfold checkEmdF
    rw [hall.2 ⟨hx, hy⟩]
    simp only [h2, h3, h4, isclose_of_le R hR h6, isclose_of_le R hR h7, bind, Except.bind, pure, Except.pure]
    simp
  · intro h
    have : (xs.all (fun x => 0 ≤ x ∧ x ≤ 1) && ys.all (fun y => 0 ≤ y ∧ y ≤ 1)) = false := by
      rw [← Bool.not_eq_true, hall]; exact h
    unfold checkEmdF
    rw [this]
    rfl

example : checkEmdF binary64 true (binary64.fl (1 / 10 ^ 9)) [1 / 10, 4 / 5, 9 / 10] [1 / 5, 3 / 10] =
    .ok (3602879701896397 / 2251799813685248) ∧
    checkEmdF binary64 false (binary64.fl (1 / 10 ^ 9)) [0] [3] = .error .assertionError := by
  constructor <;> decide +kernel

end Fp
end Verif
