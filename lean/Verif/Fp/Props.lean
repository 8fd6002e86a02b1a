import Verif.Fp.Nmd
import Verif.Core.Props

/-!
# Properties C101–C108: the distances in floating point arithmetic

`R : Rounding` is any arithmetic that rounds the exact result of each operation; `binary64` is such
an arithmetic (Verif.Fp.Rounding), the one of Python's `float`. `R.u` is its unit roundoff, `2⁻⁵³`
for `binary64`.
-/

namespace Verif
namespace Fp

open EmdSpec GramSpec

variable (R : Rounding)

/-- C101. In floating point arithmetic `emd_1d_dp` returns a value that is *exactly* symmetric,
independent of the order of the points, and zero exactly when both arguments hold the same points
with the same multiplicities. -/
theorem C101_emd_float_exact (xs ys : List ℚ) :
    (∃ c, emdDpF R xs ys = .ok c) ∧
    emdDpF R xs ys = emdDpF R ys xs ∧
    (∀ xs' ys', xs.Perm xs' → ys.Perm ys' → emdDpF R xs ys = emdDpF R xs' ys') ∧
    (emdDpF R xs ys = .ok 0 ↔ xs.Perm ys) := by
  simp only [emdDpF_ok]
  refine ⟨⟨_, rfl⟩, by rw [emdF_comm], fun xs' ys' hx hy => by rw [emdF_perm hx hy], ?_⟩
  rw [← emdF_eq_zero_iff (R := R)]
  constructor
  · intro h; injection h
  · intro h; rw [h]

example : emdDpF binary64 [1 / 3, 1 / 10] [1 / 10, 1] =
    .ok (6004799503160661 / 9007199254740992) := by decide +kernel

/-- C102. The bounds of the exact distance hold exactly in floating point arithmetic, as long as
the number of points is a floating point number. -/
theorem C102_emd_float_bounds {xs ys : List ℚ} (hl : xs.length + ys.length ≤ 2 ^ 53) {c : ℚ}
    (h : emdDpF R xs ys = .ok c) :
    |(xs.length : ℚ) - ys.length| ≤ c ∧ c ≤ xs.length + ys.length ∧
    (Spread1 xs ys → c ≤ max (xs.length : ℚ) ys.length) := by
  rw [emdDpF_ok] at h
  injection h with h
  subst h
  refine ⟨?_, emdF_le_add xs ys hl, emdF_le_max hl⟩
  have h1 := sub_le_emdF (R := R) xs ys hl
  have h2 := sub_le_emdF (R := R) ys xs (by omega)
  rw [emdF_comm] at h2
  rw [abs_le]
  constructor <;> linarith

example : emdDpF binary64 [0, 1 / 3, 1 / 10] [1 / 7] =
    .ok (1150026333417823 / 562949953421312) := by decide +kernel

/-- C103. The relative error of `emd_1d_dp`: with `L` points in total the result lies between
`(1 - u)^L` and `(1 + u)^L` times the least cost over all transport plans. -/
theorem C103_emd_float_error {xs ys : List ℚ} {c e : ℚ} (h : emdDpF R xs ys = .ok c)
    (he : IsEmd xs ys e) :
    (1 - R.u) ^ (xs.length + ys.length) * e ≤ c ∧
    c ≤ (1 + R.u) ^ (xs.length + ys.length) * e ∧
    (((xs.length + ys.length : ℕ) : ℚ) * R.u ≤ 1 / 2 →
      |c - e| ≤ 2 * ((xs.length + ys.length : ℕ) : ℚ) * R.u * e) := by
  rw [emdDpF_ok] at h
  injection h with h
  subst h
  rw [← emd_unique he]
  exact ⟨emdF_lower xs ys, emdF_upper xs ys, emdF_err xs ys⟩

example : emdDpF binary64 [1 / 10] [4 / 5] = .ok (6305039478318694 / 9007199254740992) ∧
    emdDpF binary64 [1 / 10] [4 / 5] ≠ .ok (7 / 10) ∧ emdDp [1 / 10] [4 / 5] = .ok (7 / 10) := by
  refine ⟨?_, ?_, ?_⟩ <;> decide +kernel

/-- C104. `ngram_movers_distance` in floating point arithmetic raises exactly the exceptions of the
exact computation; the distance of a word to itself is exactly 0 and its similarity exactly twice
its number of n-grams (normalised 0 and 1); the similarity is at most twice the smaller number of
n-grams and the distance at most their total, and normalised values lie in `[0, 1]`, without any
rounding allowance. -/
theorem C104_nmd_float_range {a b : List Char} (ha : Clean a) (hb : Clean b) {n : ℤ} (hn : 2 ≤ n)
    (hla : n ≤ (a.length : ℤ) + 3) (hlb : n ≤ (b.length : ℤ) + 3)
    (hT : count n.toNat a + count n.toNat b ≤ 2 ^ 53) (invert : Bool) {r : ℚ} :
    (nmdF R (.str a) (.str b) (.int n) invert false = .ok r →
      0 ≤ r ∧ r ≤ count n.toNat a + count n.toNat b ∧
      (invert = true → r ≤ 2 * min (count n.toNat a : ℚ) (count n.toNat b)) ∧
      (a = b → r = if invert then 2 * (count n.toNat a : ℚ) else 0)) ∧
    (nmdF R (.str a) (.str b) (.int n) invert true = .ok r →
      0 ≤ r ∧ r ≤ 1 ∧ (a = b → r = if invert then 1 else 0)) := by
  have s0 := simF_nonneg (R := R) hT
  have s1 := simF_le (R := R) hT
  have m1 := min_le_left (count n.toNat a : ℚ) (count n.toNat b)
  have m2 := min_le_right (count n.toNat a : ℚ) (count n.toNat b)
  have s2 : simF R n.toNat a b ≤ ((count n.toNat a + count n.toNat b : ℕ) : ℚ) := by
    push_cast; linarith
  have d0 : 0 ≤ R.fl (((count n.toNat a + count n.toNat b : ℕ) : ℚ) - simF R n.toNat a b) :=
    fl_nonneg (by linarith)
  have d1 : R.fl (((count n.toNat a + count n.toNat b : ℕ) : ℚ) - simF R n.toNat a b) ≤
      ((count n.toNat a + count n.toNat b : ℕ) : ℚ) := fl_le_nat hT (by linarith)
  have self : a = b → simF R n.toNat a b = ((count n.toNat a + count n.toNat b : ℕ) : ℚ) := by
    rintro rfl
    rw [simF_self _ _ hT]; push_cast; ring
  rw [nmdF_valid ha hb hn, nmdF_valid ha hb hn, countInt_eq_count hn hla, countInt_eq_count hn hlb]
  have ecast : (((count n.toNat a : ℕ) : ℤ) : ℚ) + (((count n.toNat b : ℕ) : ℤ) : ℚ) =
      ((count n.toNat a + count n.toNat b : ℕ) : ℚ) := by push_cast; ring
  simp only [ecast]
  constructor
  · intro h
    simp only [Bool.false_eq_true, if_false] at h
    injection h with h
    subst h
    cases invert
    · simp only [Bool.false_eq_true, if_false]
      refine ⟨d0, by push_cast at d1 ⊢; exact d1, by simp, fun e => ?_⟩
      rw [self e, sub_self, fl_zero]
    · simp only [if_true]
      refine ⟨s0, by push_cast at s2; exact s2, fun _ => s1, fun e => ?_⟩
      rw [self e, e]; push_cast; ring
  · intro h
    simp only [if_true] at h
    split at h
    · cases h
    rename_i hz
    injection h with h
    subst h
    have hpos : (0 : ℚ) < ((count n.toNat a + count n.toNat b : ℕ) : ℚ) := by
      have : 0 < count n.toNat a + count n.toNat b := by omega
      exact_mod_cast this
    have norm : ∀ x : ℚ, 0 ≤ x → x ≤ ((count n.toNat a + count n.toNat b : ℕ) : ℚ) →
        0 ≤ R.fl (x / ((count n.toNat a + count n.toNat b : ℕ) : ℚ)) ∧
        R.fl (x / ((count n.toNat a + count n.toNat b : ℕ) : ℚ)) ≤ 1 := by
      intro x h0 h1
      refine ⟨fl_nonneg (div_nonneg h0 hpos.le), ?_⟩
      have := fl_le_nat (R := R) (n := 1) (by norm_num)
        (show x / ((count n.toNat a + count n.toNat b : ℕ) : ℚ) ≤ ((1 : ℕ) : ℚ) by
          rw [div_le_iff₀ hpos]; simpa using h1)
      simpa using this
    cases invert
    · simp only [Bool.false_eq_true, if_false]
      refine ⟨(norm _ d0 d1).1, (norm _ d0 d1).2, fun e => ?_⟩
      rw [self e, sub_self, fl_zero, zero_div, fl_zero]
    · simp only [if_true]
      refine ⟨(norm _ s0 s2).1, (norm _ s0 s2).2, fun e => ?_⟩
      rw [self e, div_self hpos.ne']
      simpa using R.nat 1 (by norm_num)

/-- C104, the exceptions. -/
theorem C104_nmd_float_raises (v₁ v₂ k : PyVal) (invert normalize : Bool) (e : PyErr) :
    nmdF R v₁ v₂ k invert normalize = .error e ↔ nmd v₁ v₂ k invert normalize = .error e := by
  unfold nmdF nmd
  cases checkWord v₁ with
  | error e₁ => simp [bind, Except.bind]
  | ok w₁ =>
    cases checkWord v₂ with
    | error e₂ => simp [bind, Except.bind]
    | ok w₂ =>
      cases checkN k with
      | error e₃ => simp [bind, Except.bind]
      | ok n =>
        simp only [bind, Except.bind, nmdCheckedF, nmdChecked]
        cases normalize
        · simp
        · by_cases h : numGramsInt (pad w₁) n + numGramsInt (pad w₂) n = 0
          · simp [h]
          · simp [h]

example : nmdF binary64 (.str "banana".toList) (.str "ananas".toList) (.int 2) false true =
      .ok (4289142502257615 / 9007199254740992) ∧
    nmdF binary64 (.str "banana".toList) (.str "banana".toList) (.int 2) true true = .ok 1 ∧
    nmdF binary64 (.str "a".toList) (.str "abcde".toList) (.int 6) false true =
      .error .zeroDivisionError := by
  refine ⟨?_, ?_, ?_⟩ <;> decide +kernel

theorem nat_fl_one : R.fl 1 = 1 := by simpa using R.nat 1 (by norm_num)

theorem fl_lt_one {x : ℚ} (h0 : 0 ≤ x) (h : x * (1 + R.u) < 1) : R.fl x < 1 := by
  have := fl_upper (R := R) h0
  linarith

theorem fl_eq_zero_iff {x : ℚ} : R.fl x = 0 ↔ x = 0 := by
  constructor
  · intro h
    have h1 := R.err x
    rw [h, zero_sub, abs_neg] at h1
    have h2 := R.u_lt
    have h3 := abs_nonneg x
    have h4 : |x| = 0 := by nlinarith
    exact abs_eq_zero.1 h4
  · rintro rfl; exact fl_zero

/-- C105. In floating point arithmetic, too, the similarity is 0, and the normalised distance is 1,
exactly when the words have no n-gram in common. -/
theorem C105_nmd_float_disjoint {a b : List Char} (ha : Clean a) (hb : Clean b) {n : ℤ} (hn : 2 ≤ n)
    (hla : HasGram n a) (hlb : HasGram n b) (hT : count n.toNat a + count n.toNat b ≤ 2 ^ 53)
    (hTu : ((count n.toNat a + count n.toNat b : ℕ) : ℚ) * R.u ≤ 1) :
    (nmdF R (.str a) (.str b) (.int n) true false = .ok 0 ↔
      ∀ g, g ∈ grams n.toNat a → g ∉ grams n.toNat b) ∧
    (nmdF R (.str a) (.str b) (.int n) false true = .ok 1 ↔
      ∀ g, g ∈ grams n.toNat a → g ∉ grams n.toNat b) := by
  have hd : Disjoint (gramSet (located n.toNat a)) (gramSet (located n.toNat b)) ↔
      ∀ g, g ∈ grams n.toNat a → g ∉ grams n.toNat b := by
    rw [gramSet_located, gramSet_located, Finset.disjoint_left]
    simp only [List.mem_toFinset]
  rw [← hd]
  unfold HasGram at hla hlb
  have hc : 1 ≤ count n.toNat a := by rw [count_eq]; omega
  rw [nmdF_valid ha hb hn, nmdF_valid ha hb hn,
    countInt_eq_count hn (show n ≤ (a.length : ℤ) + 3 by omega),
    countInt_eq_count hn (show n ≤ (b.length : ℤ) + 3 by omega)]
  have ecast : (((count n.toNat a : ℕ) : ℤ) : ℚ) + (((count n.toNat b : ℕ) : ℤ) : ℚ) =
      ((count n.toNat a + count n.toNat b : ℕ) : ℚ) := by push_cast; ring
  have hne : ((count n.toNat a : ℕ) : ℤ) + ((count n.toNat b : ℕ) : ℤ) ≠ 0 := by omega
  simp only [ecast, hne, if_false, if_true, Bool.false_eq_true]
  by_cases h : Disjoint (gramSet (located n.toNat a)) (gramSet (located n.toNat b))
  · simp only [h, iff_true]
    rw [simF_eq_zero h, sub_zero, R.nat _ hT]
    refine ⟨rfl, ?_⟩
    rw [div_self, nat_fl_one]
    have : count n.toNat a + count n.toNat b ≠ 0 := by omega
    exact_mod_cast this
  · simp only [h, iff_false]
    have h1 := one_le_simF (R := R) hT h
    have s1 := simF_le (R := R) hT
    have m1 := min_le_left (count n.toNat a : ℚ) (count n.toNat b)
    have m2 := min_le_right (count n.toNat a : ℚ) (count n.toNat b)
    constructor
    · intro h2
      injection h2 with h2
      rw [h2] at h1
      norm_num at h1
    · intro h2
      injection h2 with h2
      set T : ℕ := count n.toNat a + count n.toNat b with hTd
      have hT1 : 1 ≤ T := by omega
      have hpos : (0 : ℚ) < (T : ℚ) := by exact_mod_cast hT1
      have d1 : R.fl ((T : ℚ) - simF R n.toNat a b) ≤ ((T - 1 : ℕ) : ℚ) := by
        apply fl_le_nat (by omega)
        push_cast [hT1]
        linarith
      have d0 : 0 ≤ R.fl ((T : ℚ) - simF R n.toNat a b) := by
        apply fl_nonneg
        rw [hTd]; push_cast; linarith
      push_cast [hT1] at d1
      have hu := R.u_pos
      have hlt : R.fl (R.fl ((T : ℚ) - simF R n.toNat a b) / T) < 1 := by
        apply fl_lt_one R (div_nonneg d0 hpos.le)
        rw [div_mul_eq_mul_div, div_lt_one hpos]
        calc R.fl ((T : ℚ) - simF R n.toNat a b) * (1 + R.u) ≤ ((T : ℚ) - 1) * (1 + R.u) :=
              mul_le_mul_of_nonneg_right d1 (by linarith)
          _ < T := by nlinarith
      linarith

example : nmdF binary64 (.str "abc".toList) (.str "xyz".toList) (.int 2) false true = .ok 1 ∧
    nmdF binary64 (.str "abc".toList) (.str "xyc".toList) (.int 2) false true = .ok (3 / 4) := by
  refine ⟨?_, ?_⟩ <;> decide +kernel

/-- The error of the distance, before and after normalisation. -/
theorem nmdF_dist_err {n : ℕ} {a b : List Char} (hT : count n a + count n b ≤ 2 ^ 53)
    (hTu : ((count n a + count n b : ℕ) : ℚ) * R.u ≤ 1 / 2) :
    |R.fl (((count n a + count n b : ℕ) : ℚ) - simF R n a b) -
      (((count n a + count n b : ℕ) : ℚ) - locSim (located n a) (located n b))| ≤
      5 * ((count n a + count n b : ℕ) : ℚ) ^ 2 * R.u := by
  have hu := R.u_pos
  have e := simF_err (R := R) hT hTu
  have s0 := simF_nonneg (R := R) hT
  have s1 := simF_le (R := R) hT
  have m1 := min_le_left (count n a : ℚ) (count n b)
  have m2 := min_le_right (count n a : ℚ) (count n b)
  set T : ℚ := ((count n a + count n b : ℕ) : ℚ) with hTd
  have s2 : simF R n a b ≤ T := by rw [hTd]; push_cast; linarith
  have f := R.err (T - simF R n a b)
  rw [abs_of_nonneg (show 0 ≤ T - simF R n a b by linarith)] at f
  have hT1 : T ≤ T ^ 2 := by
    rw [hTd]
    exact_mod_cast Nat.le_self_pow (by norm_num) _
  have g : R.u * (T - simF R n a b) ≤ R.u * T ^ 2 :=
    mul_le_mul_of_nonneg_left (by linarith) hu.le
  have a1 := abs_le.1 e
  have a2 := abs_le.1 f
  rw [abs_le]
  constructor <;> nlinarith

theorem norm_err {T x y δ : ℚ} (hT : 0 < T) (hy : 0 ≤ y) (hyT : y ≤ T) (h : |y - x| ≤ δ) :
    |R.fl (y / T) - x / T| ≤ δ / T + R.u := by
  have hu := R.u_pos
  have f := R.err (y / T)
  rw [abs_of_nonneg (div_nonneg hy hT.le)] at f
  have h1 : y / T ≤ 1 := (div_le_one hT).2 hyT
  have h2 : |y / T - x / T| ≤ δ / T := by
    rw [← sub_div, abs_div, abs_of_pos hT]
    exact div_le_div_of_nonneg_right h hT.le
  have h3 := abs_sub_le (R.fl (y / T)) (y / T) (x / T)
  nlinarith

/-- C106. How far rounding can move `ngram_movers_distance`: with `T` n-grams in both words
together, by at most `5 T² u`, and the normalised values by at most `6 T u` (for `T u ≤ 1/2`). -/
theorem C106_nmd_float_error {a b : List Char} (ha : Clean a) (hb : Clean b) {n : ℤ} (hn : 2 ≤ n)
    (hla : n ≤ (a.length : ℤ) + 3) (hlb : n ≤ (b.length : ℤ) + 3) {T : ℕ}
    (hTd : T = count n.toNat a + count n.toNat b) (hT : T ≤ 2 ^ 53) (hTu : (T : ℚ) * R.u ≤ 1 / 2)
    (invert : Bool) {x y : ℚ} :
    (nmdF R (.str a) (.str b) (.int n) invert false = .ok y →
      nmd (.str a) (.str b) (.int n) invert false = .ok x → |y - x| ≤ 5 * (T : ℚ) ^ 2 * R.u) ∧
    (nmdF R (.str a) (.str b) (.int n) invert true = .ok y →
      nmd (.str a) (.str b) (.int n) invert true = .ok x → |y - x| ≤ 6 * (T : ℚ) * R.u) := by
  have hu := R.u_pos
  subst hTd
  have e1 := simF_err (R := R) hT hTu
  have e2 := nmdF_dist_err R hT hTu
  have s0 := simF_nonneg (R := R) hT
  have s1 := simF_le (R := R) hT
  have m1 := min_le_left (count n.toNat a : ℚ) (count n.toNat b)
  have m2 := min_le_right (count n.toNat a : ℚ) (count n.toNat b)
  rw [nmdF_valid ha hb hn, nmdF_valid ha hb hn, nmd_valid ha hb hn, nmd_valid ha hb hn,
    countInt_eq_count hn hla, countInt_eq_count hn hlb]
  have ecast : (((count n.toNat a : ℕ) : ℤ) : ℚ) + (((count n.toNat b : ℕ) : ℤ) : ℚ) =
      ((count n.toNat a + count n.toNat b : ℕ) : ℚ) := by push_cast; ring
  simp only [ecast]
  have s2 : simF R n.toNat a b ≤ ((count n.toNat a + count n.toNat b : ℕ) : ℚ) := by
    push_cast; linarith
  have hzero : ((count n.toNat a : ℕ) : ℤ) + ((count n.toNat b : ℕ) : ℤ) ≠ 0 →
      1 ≤ count n.toNat a + count n.toNat b := by omega
  generalize hTd : count n.toNat a + count n.toNat b = T at *
  have e1' : |simF R n.toNat a b - locSim (located n.toNat a) (located n.toNat b)| ≤
      5 * (T : ℚ) ^ 2 * R.u := e1.trans (by
        have : 0 ≤ (T : ℚ) ^ 2 * R.u := by positivity
        linarith)
  constructor
  · intro h1 h2
    simp only [Bool.false_eq_true, if_false] at h1 h2
    injection h1 with h1
    injection h2 with h2
    subst h1 h2
    cases invert
    · simpa using e2
    · simpa using e1'
  · intro h1 h2
    simp only [if_true] at h1 h2
    split at h1
    · cases h1
    rename_i hz
    rw [if_neg hz] at h2
    injection h1 with h1
    injection h2 with h2
    subst h1 h2
    have hT1 : (1 : ℚ) ≤ T := by exact_mod_cast hzero hz
    have hpos : (0 : ℚ) < T := by linarith
    have fin : 5 * (T : ℚ) ^ 2 * R.u / T + R.u ≤ 6 * T * R.u := by
      rw [show 5 * (T : ℚ) ^ 2 * R.u / T = 5 * T * R.u by field_simp]
      nlinarith
    cases invert
    · simp only [Bool.false_eq_true, if_false]
      exact (norm_err R hpos (fl_nonneg (by linarith)) (fl_le_nat hT (by linarith)) e2).trans fin
    · simp only [if_true]
      exact (norm_err R hpos s0 s2 e1').trans fin

example : nmdF binary64 (.str "cbc".toList) (.str "bcbb".toList) (.int 2) false false =
      .ok (3143137239935659 / 562949953421312) ∧
    nmd (.str "cbc".toList) (.str "bcbb".toList) (.int 2) false false = .ok (67 / 12) ∧
    (3143137239935659 / 562949953421312 : ℚ) ≠ 67 / 12 := by
  refine ⟨?_, ?_, ?_⟩ <;> decide +kernel

/-- C107. With Python's floats and at most 8192 n-grams in both words together, rounding never
makes two different words equal: the distance is 0, and the normalised similarity 1, only for equal
words. -/
theorem C107_nmd_float_zero_iff {a b : List Char} (ha : Clean a) (hb : Clean b) {n : ℤ} (hn : 2 ≤ n)
    (hla : HasGram n a) (hlb : HasGram n b) (hT : count n.toNat a + count n.toNat b ≤ 8192) :
    (nmdF binary64 (.str a) (.str b) (.int n) false false = .ok 0 ↔ a = b) ∧
    (nmdF binary64 (.str a) (.str b) (.int n) false true = .ok 0 ↔ a = b) ∧
    (nmdF binary64 (.str a) (.str b) (.int n) true true = .ok 1 ↔ a = b) := by
  have hu : binary64.u = 1 / 9007199254740992 := by
    show (2 : ℚ)⁻¹ ^ 53 = _
    norm_num
  unfold HasGram at hla hlb
  have hca : 1 ≤ count n.toNat a := by rw [count_eq]; omega
  have hcb : 1 ≤ count n.toNat b := by rw [count_eq]; omega
  have hT53 : count n.toNat a + count n.toNat b ≤ 2 ^ 53 := hT.trans (by norm_num)
  have hTq : ((count n.toNat a + count n.toNat b : ℕ) : ℚ) ≤ 8192 := by exact_mod_cast hT
  have hTu : ((count n.toNat a + count n.toNat b : ℕ) : ℚ) * binary64.u ≤ 1 / 2 := by
    rw [hu]; linarith
  have e1 := simF_err (R := binary64) hT53 hTu
  have e2 := nmdF_dist_err binary64 hT53 hTu
  have s0 := simF_nonneg (R := binary64) hT53
  have s1 := simF_le (R := binary64) hT53
  have m1 := min_le_left (count n.toNat a : ℚ) (count n.toNat b)
  have m2 := min_le_right (count n.toNat a : ℚ) (count n.toNat b)
  have hpos : (2 : ℚ) ≤ ((count n.toNat a + count n.toNat b : ℕ) : ℚ) := by
    have : 2 ≤ count n.toNat a + count n.toNat b := by omega
    exact_mod_cast this
  have hself : a = b → simF binary64 n.toNat a b =
      ((count n.toNat a + count n.toNat b : ℕ) : ℚ) := by
    rintro rfl
    rw [simF_self _ _ hT53]; push_cast; ring
  -- the exact distance of different words
  have far : a ≠ b → 1 / 16777216 ≤ ((count n.toNat a + count n.toNat b : ℕ) : ℚ) -
      locSim (located n.toNat a) (located n.toNat b) := by
    intro hne
    have g := locDist_ge (n := n.toNat) (a := a) (b := b) (by omega) (by omega) hne
    push_cast
    refine le_trans ?_ g
    have hm : max 1 (count n.toNat a - 1) * max 1 (count n.toNat b - 1) ≤ 16777216 := by
      have h1 : max 1 (count n.toNat a - 1) ≤ count n.toNat a := by omega
      have h2 : max 1 (count n.toNat b - 1) ≤ count n.toNat b := by omega
      refine (Nat.mul_le_mul h1 h2).trans ?_
      nlinarith [sq_nonneg ((count n.toNat a : ℤ) - count n.toNat b)]
    have hm1 : (0 : ℚ) < ((max 1 (count n.toNat a - 1) : ℕ) : ℚ) * ((max 1 (count n.toNat b - 1) : ℕ) : ℚ) := by
      positivity
    apply one_div_le_one_div_of_le hm1
    exact_mod_cast hm
  rw [nmdF_valid ha hb hn, nmdF_valid ha hb hn, nmdF_valid ha hb hn,
    countInt_eq_count hn (show n ≤ (a.length : ℤ) + 3 by omega),
    countInt_eq_count hn (show n ≤ (b.length : ℤ) + 3 by omega)]
  have ecast : (((count n.toNat a : ℕ) : ℤ) : ℚ) + (((count n.toNat b : ℕ) : ℤ) : ℚ) =
      ((count n.toNat a + count n.toNat b : ℕ) : ℚ) := by push_cast; ring
  have hne : ((count n.toNat a : ℕ) : ℤ) + ((count n.toNat b : ℕ) : ℤ) ≠ 0 := by omega
  simp only [ecast, hne, if_false, if_true, Bool.false_eq_true]
  have s2 : simF binary64 n.toNat a b ≤ ((count n.toNat a + count n.toNat b : ℕ) : ℚ) := by
    push_cast; linarith
  generalize hTd : ((count n.toNat a + count n.toNat b : ℕ) : ℚ) = T at *
  rw [hu] at e1 e2
  have hT2 : T ^ 2 ≤ 67108864 := by nlinarith
  have dne : a ≠ b → 0 < binary64.fl (T - simF binary64 n.toNat a b) := by
    intro h
    have := far h
    have := (abs_le.1 e2).1
    linarith
  have sne : a ≠ b → simF binary64 n.toNat a b ≤ T - 1 / 33554432 := by
    intro h
    have := far h
    have := (abs_le.1 e1).2
    linarith
  refine ⟨?_, ?_, ?_⟩
  · constructor
    · intro h
      injection h with h
      by_contra hc
      have := dne hc
      linarith
    · intro h
      rw [hself h, sub_self, fl_zero]
  · constructor
    · intro h
      injection h with h
      by_contra hc
      have := dne hc
      rw [fl_eq_zero_iff] at h
      have : 0 < binary64.fl (T - simF binary64 n.toNat a b) / T := div_pos this (by linarith)
      linarith
    · intro h
      rw [hself h, sub_self, fl_zero, zero_div, fl_zero]
  · constructor
    · intro h
      injection h with h
      by_contra hc
      have h1 := sne hc
      have hlt : binary64.fl (simF binary64 n.toNat a b / T) < 1 := by
        apply fl_lt_one binary64 (div_nonneg s0 (by linarith))
        rw [div_mul_eq_mul_div, div_lt_one (by linarith), hu]
        linarith
      linarith
    · intro h
      rw [hself h, div_self (by linarith : T ≠ 0)]
      congr 1
      exact nat_fl_one binary64

example : nmdF binary64 (.str "banana".toList) (.str "banane".toList) (.int 3) false false = .ok 4 ∧
    count 3 "banana".toList + count 3 "banane".toList ≤ 8192 := by
  refine ⟨?_, ?_⟩ <;> decide +kernel

/-- C108. In floating point arithmetic `ngram_movers_distance` is *not* exactly symmetric: the terms
are added in the order of the first word. -/
theorem C108_nmd_float_not_symmetric :
    ∃ a b : List Char, Clean a ∧ Clean b ∧
      nmdF binary64 (.str a) (.str b) (.int 2) false false ≠
        nmdF binary64 (.str b) (.str a) (.int 2) false false := by
  refine ⟨"cbc".toList, "bcbb".toList, ⟨by decide, by decide⟩, ⟨by decide, by decide⟩, ?_⟩
  decide +kernel

/-- C108. The two results differ by at most twice the error bound of C106, and the triangle
inequality holds up to three times that bound for the longest two words. -/
theorem C108_nmd_float_metric {a b c : List Char} (ha : Clean a) (hb : Clean b) (hc : Clean c)
    {n : ℤ} (hn : 2 ≤ n) (hla : n ≤ (a.length : ℤ) + 3) (hlb : n ≤ (b.length : ℤ) + 3)
    (hlc : n ≤ (c.length : ℤ) + 3) {T : ℕ} (hab : count n.toNat a + count n.toNat b ≤ T)
    (hbc : count n.toNat b + count n.toNat c ≤ T) (hac : count n.toNat a + count n.toNat c ≤ T)
    (hT : T ≤ 2 ^ 53) (hTu : (T : ℚ) * R.u ≤ 1 / 2) {dab dba dbc dac : ℚ}
    (h1 : nmdF R (.str a) (.str b) (.int n) false false = .ok dab)
    (h2 : nmdF R (.str b) (.str a) (.int n) false false = .ok dba)
    (h3 : nmdF R (.str b) (.str c) (.int n) false false = .ok dbc)
    (h4 : nmdF R (.str a) (.str c) (.int n) false false = .ok dac) :
    |dab - dba| ≤ 10 * (T : ℚ) ^ 2 * R.u ∧ dac ≤ dab + dbc + 15 * (T : ℚ) ^ 2 * R.u := by
  have hu := R.u_pos
  have err : ∀ {v w : List Char}, Clean v → Clean w → n ≤ (v.length : ℤ) + 3 →
      n ≤ (w.length : ℤ) + 3 → count n.toNat v + count n.toNat w ≤ T → ∀ {y : ℚ},
      nmdF R (.str v) (.str w) (.int n) false false = .ok y →
      |y - ((count n.toNat v : ℚ) + count n.toNat w - locSim (located n.toNat v) (located n.toNat w))|
        ≤ 5 * (T : ℚ) ^ 2 * R.u := by
    intro v w hv hw hlv hlw hvw y h
    have hq : ((count n.toNat v + count n.toNat w : ℕ) : ℚ) ≤ T := by exact_mod_cast hvw
    have e := nmdF_dist_err R (n := n.toNat) (a := v) (b := w) (hvw.trans hT)
      (le_trans (mul_le_mul_of_nonneg_right hq hu.le) hTu)
    rw [nmdF_valid hv hw hn, countInt_eq_count hn hlv, countInt_eq_count hn hlw] at h
    simp only [Bool.false_eq_true, if_false] at h
    injection h with h
    subst h
    push_cast at e ⊢
    refine e.trans ?_
    push_cast at hq
    have h0 : (0 : ℚ) ≤ (count n.toNat v : ℚ) + count n.toNat w := by positivity
    have : ((count n.toNat v : ℚ) + count n.toNat w) ^ 2 ≤ (T : ℚ) ^ 2 := pow_le_pow_left₀ h0 hq 2
    nlinarith
  have e1 := abs_le.1 (err ha hb hla hlb hab h1)
  have e2 := abs_le.1 (err hb ha hlb hla (by omega) h2)
  have e3 := abs_le.1 (err hb hc hlb hlc hbc h3)
  have e4 := abs_le.1 (err ha hc hla hlc hac h4)
  rw [locSim_comm (located n.toNat b)] at e2
  have tri := locDist_triangle (located n.toNat a) (located n.toNat b) (located n.toNat c)
  simp only [length_located] at tri
  constructor
  · rw [abs_le]; constructor <;> linarith
  · linarith

example : nmdF binary64 (.str "cbc".toList) (.str "bcbb".toList) (.int 2) false false =
      .ok (3143137239935659 / 562949953421312) ∧
    nmdF binary64 (.str "bcbb".toList) (.str "cbc".toList) (.int 2) false false =
      .ok (6286274479871317 / 1125899906842624) := by
  refine ⟨?_, ?_⟩ <;> decide +kernel

end Fp
end Verif
