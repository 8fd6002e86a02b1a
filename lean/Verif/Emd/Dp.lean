import Verif.Emd.Model
import Verif.Emd.Align

/-!
# The dynamic programme of `emd_1d_dp` computes the alignment recursion
-/

namespace Verif

/-- Substitution cost used by the DP. -/
def absd (a b : ℚ) : ℚ := |a - b|

theorem absd_nonneg (a b : ℚ) : 0 ≤ absd a b := abs_nonneg _

theorem absd_comm (a b : ℚ) : absd a b = absd b a := abs_sub_comm a b

theorem absd_triangle (a b c : ℚ) : absd a c ≤ absd a b + absd b c := abs_sub_le a b c

/-- Value of DP cell `(i, j)`. -/
def dpVal (x y : List ℚ) (i j : Nat) : ℚ :=
  align absd (x.take i).reverse (y.take j).reverse

theorem dpVal_zero_left (x y : List ℚ) {j : Nat} (hj : j ≤ y.length) : dpVal x y 0 j = j := by
  simp [dpVal, hj]

theorem dpVal_zero_right (x y : List ℚ) {i : Nat} (hi : i ≤ x.length) : dpVal x y i 0 = i := by
  simp [dpVal, hi]

theorem dpVal_succ (x y : List ℚ) {i j : Nat} (hi : i < x.length) (hj : j < y.length) :
    dpVal x y (i + 1) (j + 1) =
      min (min (|x[i] - y[j]| + dpVal x y i j) (1 + dpVal x y i (j + 1)))
        (1 + dpVal x y (i + 1) j) := by
  simp only [dpVal, List.take_succ_eq_append_getElem hi, List.take_succ_eq_append_getElem hj,
    List.reverse_append, List.reverse_cons, List.reverse_nil, List.nil_append, List.cons_append]
  rw [align_cons_cons]; rfl

/-- Row invariant: entries `0..k` of `curr` hold the values of row `i`. -/
def RowOk (x y : List ℚ) (i k : Nat) (curr : List ℚ) : Prop :=
  curr.length = y.length + 1 ∧ ∀ t, t ≤ k → curr[t]? = some (dpVal x y i t)

theorem dpCell_ok {x y : List ℚ} {i j : Nat} {prev curr : List ℚ}
    (hi : i < x.length) (hj : j < y.length)
    (hp : RowOk x y i y.length prev) (hc : RowOk x y (i + 1) j curr) :
    ∃ curr', dpCell x y (i + 1) prev curr (1 + j) = .ok curr' ∧ RowOk x y (i + 1) (j + 1) curr' := by
  have h1 := hp.2 j (by omega)
  have h2 := hp.2 (j + 1) (by omega)
  have h3 := hc.2 j le_rfl
  have hl : j + 1 < curr.length := by rw [hc.1]; omega
  refine ⟨curr.set (j + 1) (dpVal x y (i + 1) (j + 1)), ?_, ?_, ?_⟩
  · rw [dpVal_succ x y hi hj]
    simp only [dpCell, Nat.add_sub_cancel, Nat.add_comm 1 j, pyGet_ok hi, pyGet_ok hj,
      pyGet_ok' h1, pyGet_ok' h2, pyGet_ok' h3, pySet_ok hl, bind, Except.bind]
  · simp [hc.1]
  · intro t ht
    by_cases h : t = j + 1
    · subst h; simp [hl]
    · rw [List.getElem?_set_ne (by omega)]
      exact hc.2 t (by omega)

theorem dpInner_ok {x y : List ℚ} {i : Nat} {prev curr : List ℚ} (hi : i < x.length)
    (hp : RowOk x y i y.length prev) (hc : RowOk x y (i + 1) 0 curr) :
    ∀ k, k ≤ y.length →
      ∃ curr', (List.range' 1 k).foldlM (dpCell x y (i + 1) prev) curr = .ok curr' ∧
        RowOk x y (i + 1) k curr' := by
  intro k
  induction k with
  | zero => intro _; exact ⟨curr, rfl, hc⟩
  | succ k ih =>
    intro hk
    obtain ⟨c1, e1, r1⟩ := ih (by omega)
    obtain ⟨c2, e2, r2⟩ := dpCell_ok hi (by omega) hp r1
    refine ⟨c2, ?_, r2⟩
    rw [List.range'_concat, List.foldlM_append, e1]
    simp [bind, Except.bind, e2, pure, Except.pure]

theorem dpRow_ok {x y : List ℚ} {i : Nat} {bufs : List ℚ × List ℚ} (hi : i < x.length)
    (hp : RowOk x y i y.length bufs.1) (hl : bufs.2.length = y.length + 1) :
    ∃ b', dpRow x y bufs (1 + i) = .ok b' ∧ RowOk x y (i + 1) y.length b'.1 ∧
      b'.2.length = y.length + 1 := by
  have hc : RowOk x y (i + 1) 0 (bufs.2.set 0 ((i + 1 : ℕ) : ℚ)) := by
    refine ⟨by simp [hl], ?_⟩
    intro t ht
    obtain rfl : t = 0 := by omega
    rw [dpVal_zero_right x y (by omega)]
    simp [hl]
  obtain ⟨c', e', r'⟩ := dpInner_ok hi hp hc y.length le_rfl
  refine ⟨(c', bufs.1), ?_, r', hp.1⟩
  rw [Nat.add_comm 1 i]
  simp only [dpRow, pySet_ok (show 0 < bufs.2.length by omega), bind, Except.bind, e', pure,
    Except.pure]

theorem dpOuter_ok (x y : List ℚ) (bufs : List ℚ × List ℚ)
    (hp : RowOk x y 0 y.length bufs.1) (hl : bufs.2.length = y.length + 1) :
    ∀ k, k ≤ x.length →
      ∃ b', (List.range' 1 k).foldlM (dpRow x y) bufs = .ok b' ∧
        RowOk x y k y.length b'.1 ∧ b'.2.length = y.length + 1 := by
  intro k
  induction k with
  | zero => intro _; exact ⟨bufs, rfl, hp, hl⟩
  | succ k ih =>
    intro hk
    obtain ⟨b1, e1, r1, l1⟩ := ih (by omega)
    obtain ⟨b2, e2, r2, l2⟩ := dpRow_ok (by omega) r1 l1
    refine ⟨b2, ?_, r2, l2⟩
    rw [List.range'_concat, List.foldlM_append, e1]
    simp [bind, Except.bind, e2, pure, Except.pure]

theorem dp_run_ok (x y : List ℚ) :
    (do
      let bufs ← (List.range' 1 x.length).foldlM (dpRow x y)
        ((List.range (y.length + 1)).map (fun j : ℕ => (j : ℚ)),
         (List.range (y.length + 1)).map (fun j : ℕ => (j : ℚ)))
      pyGet bufs.1 y.length : Except PyErr ℚ) = .ok (align absd x.reverse y.reverse) := by
  have hp : RowOk x y 0 y.length ((List.range (y.length + 1)).map (fun j : ℕ => (j : ℚ))) := by
    refine ⟨by simp, ?_⟩
    intro t ht
    rw [dpVal_zero_left x y ht]
    simp [Nat.lt_succ_of_le ht]
  obtain ⟨b, e, r, _⟩ := dpOuter_ok x y
    ((List.range (y.length + 1)).map (fun j : ℕ => (j : ℚ)),
     (List.range (y.length + 1)).map (fun j : ℕ => (j : ℚ))) hp (by simp) x.length le_rfl
  rw [e]
  simp only [bind, Except.bind]
  rw [pyGet_ok' (r.2 y.length le_rfl)]
  simp [dpVal]

theorem align_absd_comm (xs ys : List ℚ) : align absd xs ys = align absd ys xs := by
  rw [align_comm]
  congr 1
  funext a b; exact absd_comm _ _

/-- The DP on sorted lists never raises and computes the alignment recursion. -/
theorem emdDpSorted_ok (x y : List ℚ) :
    emdDpSorted x y = .ok (align absd x.reverse y.reverse) := by
  unfold emdDpSorted
  by_cases h : x.length > y.length
  · rw [if_pos h]
    rw [align_absd_comm]
    exact dp_run_ok y x
  · rw [if_neg h]
    exact dp_run_ok x y

theorem emdDp_eq (xs ys : List ℚ) :
    emdDp xs ys = .ok (align absd (pySorted xs).reverse (pySorted ys).reverse) :=
  emdDpSorted_ok _ _

theorem emd_eq_align (xs ys : List ℚ) :
    emd xs ys = align absd (pySorted xs).reverse (pySorted ys).reverse := by
  simp [emd, emdDp_eq]

/-- `emd_1d_dp` never raises. -/
theorem emdDp_ok (xs ys : List ℚ) : emdDp xs ys = .ok (emd xs ys) := by
  rw [emd_eq_align, emdDp_eq]

end Verif
