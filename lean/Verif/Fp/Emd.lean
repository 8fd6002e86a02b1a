import Verif.Fp.Model
import Verif.Emd.Facts

/-!
# The dynamic programme in rounded arithmetic
-/

namespace Verif
namespace Fp

variable (R : FOps)

/-- The recursion that the dynamic programme computes. -/
def alignF : List ℚ → List ℚ → ℚ
  | [], ys => R.fl ys.length
  | x :: xs, [] => R.fl ((x :: xs).length : ℕ)
  | x :: xs, y :: ys =>
    min (min (R.fl (|R.fl (x - y)| + alignF xs ys)) (R.fl (1 + alignF xs (y :: ys))))
      (R.fl (1 + alignF (x :: xs) ys))
termination_by xs ys => xs.length + ys.length

theorem alignF_nil_left (ys : List ℚ) : alignF R [] ys = R.fl ys.length := by
  rw [alignF]

theorem alignF_nil_right (xs : List ℚ) : alignF R xs [] = R.fl xs.length := by
  cases xs <;> rw [alignF]

theorem alignF_cons_cons (x y : ℚ) (xs ys : List ℚ) : alignF R (x :: xs) (y :: ys) =
    min (min (R.fl (|R.fl (x - y)| + alignF R xs ys)) (R.fl (1 + alignF R xs (y :: ys))))
      (R.fl (1 + alignF R (x :: xs) ys)) := by
  rw [alignF]

/-- Value of DP cell `(i, j)`. -/
def dpValF (x y : List ℚ) (i j : Nat) : ℚ :=
  alignF R (x.take i).reverse (y.take j).reverse

theorem dpValF_zero_left (x y : List ℚ) {j : Nat} (hj : j ≤ y.length) :
    dpValF R x y 0 j = R.fl j := by
  simp [dpValF, hj, alignF_nil_left]

theorem dpValF_zero_right (x y : List ℚ) {i : Nat} (hi : i ≤ x.length) :
    dpValF R x y i 0 = R.fl i := by
  simp [dpValF, hi, alignF_nil_right]

theorem dpValF_succ (x y : List ℚ) {i j : Nat} (hi : i < x.length) (hj : j < y.length) :
    dpValF R x y (i + 1) (j + 1) =
      min (min (R.fl (|R.fl (x[i] - y[j])| + dpValF R x y i j)) (R.fl (1 + dpValF R x y i (j + 1))))
        (R.fl (1 + dpValF R x y (i + 1) j)) := by
  simp only [dpValF, List.take_succ_eq_append_getElem hi, List.take_succ_eq_append_getElem hj,
    List.reverse_append, List.reverse_cons, List.reverse_nil, List.nil_append, List.cons_append]
  rw [alignF_cons_cons]

/-- Row invariant: entries `0..k` of `curr` hold the values of row `i`. -/
def RowOkF (x y : List ℚ) (i k : Nat) (curr : List ℚ) : Prop :=
  curr.length = y.length + 1 ∧ ∀ t, t ≤ k → curr[t]? = some (dpValF R x y i t)

variable {R}

theorem dpCellF_ok {x y : List ℚ} {i j : Nat} {prev curr : List ℚ}
    (hi : i < x.length) (hj : j < y.length)
    (hp : RowOkF R x y i y.length prev) (hc : RowOkF R x y (i + 1) j curr) :
    ∃ curr', dpCellF R x y (i + 1) prev curr (1 + j) = .ok curr' ∧
      RowOkF R x y (i + 1) (j + 1) curr' := by
  have h1 := hp.2 j (by omega)
  have h2 := hp.2 (j + 1) (by omega)
  have h3 := hc.2 j le_rfl
  have hl : j + 1 < curr.length := by rw [hc.1]; omega
  refine ⟨curr.set (j + 1) (dpValF R x y (i + 1) (j + 1)), ?_, ?_, ?_⟩
  · rw [dpValF_succ R x y hi hj]
    simp only [dpCellF, Nat.add_sub_cancel, Nat.add_comm 1 j, pyGet_ok hi, pyGet_ok hj,
      pyGet_ok' h1, pyGet_ok' h2, pyGet_ok' h3, pySet_ok hl, bind, Except.bind]
  · simp [hc.1]
  · intro t ht
    by_cases h : t = j + 1
    · subst h; simp [hl]
    · rw [List.getElem?_set_ne (by omega)]
      exact hc.2 t (by omega)

theorem dpInnerF_ok {x y : List ℚ} {i : Nat} {prev curr : List ℚ} (hi : i < x.length)
    (hp : RowOkF R x y i y.length prev) (hc : RowOkF R x y (i + 1) 0 curr) :
    ∀ k, k ≤ y.length →
      ∃ curr', (List.range' 1 k).foldlM (dpCellF R x y (i + 1) prev) curr = .ok curr' ∧
        RowOkF R x y (i + 1) k curr' := by
  intro k
  induction k with
  | zero => intro _; exact ⟨curr, rfl, hc⟩
  | succ k ih =>
    intro hk
    obtain ⟨c1, e1, r1⟩ := ih (by omega)
    obtain ⟨c2, e2, r2⟩ := dpCellF_ok hi (by omega) hp r1
    refine ⟨c2, ?_, r2⟩
    rw [List.range'_concat, List.foldlM_append, e1]
    simp [bind, Except.bind, e2, pure, Except.pure]

theorem dpRowF_ok {x y : List ℚ} {i : Nat} {bufs : List ℚ × List ℚ} (hi : i < x.length)
    (hp : RowOkF R x y i y.length bufs.1) (hl : bufs.2.length = y.length + 1) :
    ∃ b', dpRowF R x y bufs (1 + i) = .ok b' ∧ RowOkF R x y (i + 1) y.length b'.1 ∧
      b'.2.length = y.length + 1 := by
  have hc : RowOkF R x y (i + 1) 0 (bufs.2.set 0 (R.fl ((i + 1 : ℕ) : ℚ))) := by
    refine ⟨by simp [hl], ?_⟩
    intro t ht
    obtain rfl : t = 0 := by omega
    rw [dpValF_zero_right R x y (by omega)]
    simp [hl]
  obtain ⟨c', e', r'⟩ := dpInnerF_ok hi hp hc y.length le_rfl
  refine ⟨(c', bufs.1), ?_, r', hp.1⟩
  rw [Nat.add_comm 1 i]
  simp only [dpRowF, pySet_ok (show 0 < bufs.2.length by omega), bind, Except.bind, e', pure,
    Except.pure]

theorem dpOuterF_ok (x y : List ℚ) (bufs : List ℚ × List ℚ)
    (hp : RowOkF R x y 0 y.length bufs.1) (hl : bufs.2.length = y.length + 1) :
    ∀ k, k ≤ x.length →
      ∃ b', (List.range' 1 k).foldlM (dpRowF R x y) bufs = .ok b' ∧
        RowOkF R x y k y.length b'.1 ∧ b'.2.length = y.length + 1 := by
  intro k
  induction k with
  | zero => intro _; exact ⟨bufs, rfl, hp, hl⟩
  | succ k ih =>
    intro hk
    obtain ⟨b1, e1, r1, l1⟩ := ih (by omega)
    obtain ⟨b2, e2, r2, l2⟩ := dpRowF_ok (by omega) r1 l1
    refine ⟨b2, ?_, r2, l2⟩
    rw [List.range'_concat, List.foldlM_append, e1]
    simp [bind, Except.bind, e2, pure, Except.pure]

theorem dp_runF_ok (x y : List ℚ) :
    (do
      let bufs ← (List.range' 1 x.length).foldlM (dpRowF R x y)
        ((List.range (y.length + 1)).map (fun j : ℕ => R.fl (j : ℚ)),
         (List.range (y.length + 1)).map (fun j : ℕ => R.fl (j : ℚ)))
      pyGet bufs.1 y.length : Except PyErr ℚ) = .ok (alignF R x.reverse y.reverse) := by
  have hp : RowOkF R x y 0 y.length ((List.range (y.length + 1)).map (fun j : ℕ => R.fl (j : ℚ))) := by
    refine ⟨by simp, ?_⟩
    intro t ht
    rw [dpValF_zero_left R x y ht]
    simp [Nat.lt_succ_of_le ht]
  obtain ⟨b, e, r, _⟩ := dpOuterF_ok x y
    ((List.range (y.length + 1)).map (fun j : ℕ => R.fl (j : ℚ)),
     (List.range (y.length + 1)).map (fun j : ℕ => R.fl (j : ℚ))) hp (by simp) x.length le_rfl
  rw [e]
  simp only [bind, Except.bind]
  rw [pyGet_ok' (r.2 y.length le_rfl)]
  simp [dpValF]

section Laws

variable {R : Rounding}

theorem abs_fl_sub_comm (x y : ℚ) : |R.fl (x - y)| = |R.fl (y - x)| := by
  rw [← neg_sub, R.odd, abs_neg]

theorem alignF_comm (xs ys : List ℚ) : alignF R xs ys = alignF R ys xs := by
  match xs, ys with
  | [], ys => rw [alignF_nil_left, alignF_nil_right]
  | x :: xs, [] => rw [alignF_nil_left, alignF_nil_right]
  | x :: xs, y :: ys =>
    rw [alignF_cons_cons, alignF_cons_cons, abs_fl_sub_comm, alignF_comm xs ys,
      alignF_comm xs (y :: ys), alignF_comm (x :: xs) ys, min_assoc, min_assoc,
      min_comm (R.fl (1 + alignF R (y :: ys) xs))]
termination_by xs.length + ys.length

theorem emdDpSortedF_ok (x y : List ℚ) :
    emdDpSortedF R x y = .ok (alignF R x.reverse y.reverse) := by
  unfold emdDpSortedF
  by_cases h : x.length > y.length
  · rw [if_pos h]
    rw [alignF_comm]
    exact dp_runF_ok y x
  · rw [if_neg h]
    exact dp_runF_ok x y

theorem emdF_eq_align (xs ys : List ℚ) :
    emdF R xs ys = alignF R (pySorted xs).reverse (pySorted ys).reverse := by
  simp [emdF, emdDpF, emdDpSortedF_ok]

/-- `emd_1d_dp` never raises. -/
theorem emdDpF_ok (xs ys : List ℚ) : emdDpF R xs ys = .ok (emdF R xs ys) := by
  rw [emdF_eq_align]
  exact emdDpSortedF_ok _ _

/-! ## Order -/

theorem fl_zero : R.fl 0 = 0 := by
  have := R.nat 0 (by norm_num)
  simpa using this

theorem fl_nonneg {x : ℚ} (h : 0 ≤ x) : 0 ≤ R.fl x := by
  rw [← fl_zero (R := R)]
  exact R.mono h

theorem fl_le_nat {x : ℚ} {n : ℕ} (hn : n ≤ 2 ^ 53) (h : x ≤ n) : R.fl x ≤ n := by
  rw [← R.nat n hn]
  exact R.mono h

theorem nat_le_fl {x : ℚ} {n : ℕ} (hn : n ≤ 2 ^ 53) (h : (n : ℚ) ≤ x) : (n : ℚ) ≤ R.fl x := by
  rw [← R.nat n hn]
  exact R.mono h

theorem int_le_fl {x : ℚ} {n : ℤ} (hn : |n| ≤ 2 ^ 53) (h : (n : ℚ) ≤ x) : (n : ℚ) ≤ R.fl x := by
  have key : R.fl n = n := by
    rcases le_total 0 n with h0 | h0
    · lift n to ℕ using h0
      have := R.nat n (by rw [abs_of_nonneg (by omega)] at hn; exact_mod_cast hn)
      exact_mod_cast this
    · obtain ⟨m, rfl⟩ : ∃ m : ℕ, n = -m := ⟨n.natAbs, by omega⟩
      have := R.nat m (by rw [abs_neg, abs_of_nonneg (by omega)] at hn; exact_mod_cast hn)
      push_cast
      rw [R.odd, this]
  rw [← key]
  exact R.mono h

theorem alignF_nonneg (xs ys : List ℚ) : 0 ≤ alignF R xs ys := by
  match xs, ys with
  | [], ys => rw [alignF_nil_left]; exact fl_nonneg (by positivity)
  | x :: xs, [] => rw [alignF_nil_right]; exact fl_nonneg (by positivity)
  | x :: xs, y :: ys =>
    rw [alignF_cons_cons]
    have h1 := alignF_nonneg xs ys
    have h2 := alignF_nonneg xs (y :: ys)
    have h3 := alignF_nonneg (x :: xs) ys
    refine le_min (le_min ?_ ?_) ?_ <;> apply fl_nonneg <;> positivity
termination_by xs.length + ys.length

/-- Not less than the difference of the lengths. -/
theorem alignF_ge (xs ys : List ℚ) (hl : xs.length + ys.length ≤ 2 ^ 53) :
    ((xs.length : ℤ) - ys.length : ℚ) ≤ alignF R xs ys := by
  match xs, ys with
  | [], ys =>
    refine le_trans ?_ (alignF_nonneg _ _)
    simp
  | x :: xs, [] =>
    rw [alignF_nil_right]
    simp only [List.length_nil, Int.cast_natCast, Nat.cast_zero, sub_zero] at hl ⊢
    exact nat_le_fl (by omega) le_rfl
  | x :: xs, y :: ys =>
    simp only [List.length_cons] at hl
    have h1 := alignF_ge xs ys (by omega)
    have h2 := alignF_ge xs (y :: ys) (by simp only [List.length_cons]; omega)
    have h3 := alignF_ge (x :: xs) ys (by simp only [List.length_cons]; omega)
    rw [alignF_cons_cons]
    simp only [List.length_cons] at h1 h2 h3 ⊢
    push_cast at h1 h2 h3 ⊢
    have e : ((xs.length : ℚ) + 1 - (ys.length + 1)) = (((xs.length : ℤ) - ys.length : ℤ) : ℚ) := by
      push_cast; ring
    rw [e]
    have hb : |(xs.length : ℤ) - ys.length| ≤ 2 ^ 53 := by rw [abs_le]; constructor <;> omega
    have ha := abs_nonneg (R.fl (x - y))
    refine le_min (le_min ?_ ?_) ?_ <;> apply int_le_fl hb <;> push_cast <;> linarith
termination_by xs.length + ys.length

/-- Not more than the sum of the lengths. -/
theorem alignF_le (xs ys : List ℚ) (hl : xs.length + ys.length ≤ 2 ^ 53) :
    alignF R xs ys ≤ ((xs.length + ys.length : ℕ) : ℚ) := by
  match xs, ys with
  | [], ys =>
    rw [alignF_nil_left, List.length_nil, Nat.zero_add]
    simp only [List.length_nil, Nat.zero_add] at hl
    exact fl_le_nat hl le_rfl
  | x :: xs, [] =>
    rw [alignF_nil_right, List.length_nil, Nat.add_zero]
    simp only [List.length_nil, Nat.add_zero] at hl
    exact fl_le_nat hl le_rfl
  | x :: xs, y :: ys =>
    have h3 := alignF_le (x :: xs) ys (by simp only [List.length_cons] at hl ⊢; omega)
    rw [alignF_cons_cons]
    refine (min_le_right _ _).trans (fl_le_nat hl ?_)
    simp only [List.length_cons] at h3 ⊢
    push_cast at h3 ⊢
    linarith
termination_by xs.length + ys.length

/-- Not more than the longer length if all points are within one of each other. -/
theorem alignF_le_max (xs ys : List ℚ) (hl : xs.length + ys.length ≤ 2 ^ 53)
    (hd : ∀ x ∈ xs, ∀ y ∈ ys, |x - y| ≤ 1) :
    alignF R xs ys ≤ ((max xs.length ys.length : ℕ) : ℚ) := by
  match xs, ys with
  | [], ys =>
    rw [alignF_nil_left, List.length_nil, Nat.zero_max]
    simp only [List.length_nil, Nat.zero_add] at hl
    exact fl_le_nat hl le_rfl
  | x :: xs, [] =>
    rw [alignF_nil_right, List.length_nil, Nat.max_zero]
    simp only [List.length_nil, Nat.add_zero] at hl
    exact fl_le_nat hl le_rfl
  | x :: xs, y :: ys =>
    have h3 := alignF_le_max xs ys (by simp only [List.length_cons] at hl ⊢; omega)
      (fun a ha b hb => hd a (by simp [ha]) b (by simp [hb]))
    rw [alignF_cons_cons]
    simp only [List.length_cons] at hl ⊢
    refine (min_le_left _ _).trans ((min_le_left _ _).trans (fl_le_nat (by omega) ?_))
    have h4 : |R.fl (x - y)| ≤ 1 := by
      have h5 := abs_le.1 (hd x (by simp) y (by simp))
      have one : R.fl 1 = 1 := by simpa using R.nat 1 (by norm_num)
      rw [abs_le]
      constructor
      · have := R.mono h5.1
        rwa [R.odd, one] at this
      · have := R.mono h5.2
        rwa [one] at this
    rw [Nat.succ_max_succ]
    push_cast
    push_cast at h3
    linarith
termination_by xs.length + ys.length

theorem alignF_self (xs : List ℚ) : alignF R xs xs = 0 := by
  induction xs with
  | nil => rw [alignF_nil_left]; simpa using fl_zero
  | cons x xs ih =>
    refine le_antisymm ?_ (alignF_nonneg _ _)
    rw [alignF_cons_cons, ih]
    refine (min_le_left _ _).trans ((min_le_left _ _).trans ?_)
    simp [fl_zero]

/-! ## Relative error -/

theorem fl_upper {x : ℚ} (h : 0 ≤ x) : R.fl x ≤ (1 + R.u) * x := by
  have := (abs_le.1 (R.err x)).2
  rw [abs_of_nonneg h] at this
  linarith

theorem fl_lower {x : ℚ} (h : 0 ≤ x) : (1 - R.u) * x ≤ R.fl x := by
  have := (abs_le.1 (R.err x)).1
  rw [abs_of_nonneg h] at this
  linarith

theorem abs_fl (x : ℚ) : |R.fl x| = R.fl |x| := by
  rcases le_total 0 x with h | h
  · rw [abs_of_nonneg h, abs_of_nonneg (fl_nonneg h)]
  · have : R.fl |x| = - R.fl x := by rw [abs_of_nonpos h, R.odd]
    rw [this, abs_of_nonpos]
    have := fl_nonneg (R := R) (x := -x) (by linarith)
    rw [R.odd] at this
    linarith

end Laws

end Fp
end Verif
