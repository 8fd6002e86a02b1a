import Verif.Fp.Range
import Verif.Fp.Emd

/-!
# The dynamic programme within the range of exponents
-/

namespace Verif
namespace Fp

/-- Points within the bounds. -/
def Pts (e : ℤ) (k : ℕ) (xs : List ℚ) : Prop := ∀ x ∈ xs, Bd e k 1 x

variable {comp : Bool} {O U : FOps} {e : ℤ} {k : ℕ}

theorem alignF_range (hO : IsDouble comp O) (hU : U.fl = rne) (he : -1074 ≤ e) (he0 : e ≤ 0)
    (hk : k ≤ 970) (xs ys : List ℚ) (hx : Pts e k xs) (hy : Pts e k ys)
    (hl : xs.length + ys.length ≤ 2 ^ 53) :
    alignF O xs ys = alignF U xs ys ∧ Bd e k (xs.length + ys.length) (alignF U xs ys) := by
  match xs, ys with
  | [], ys =>
    rw [alignF_nil_left, alignF_nil_left, hU]
    have h1 : Bd e k ys.length (ys.length : ℚ) := Bd.nat he0 _
    rw [List.length_nil, Nat.zero_add] at hl ⊢
    exact ⟨hO.fl_eq he hk hl h1, h1.rne hl⟩
  | x :: xs, [] =>
    rw [alignF_nil_right, alignF_nil_right, hU]
    have h1 : Bd e k (x :: xs).length ((x :: xs).length : ℚ) := Bd.nat he0 _
    rw [List.length_nil, Nat.add_zero] at hl ⊢
    exact ⟨hO.fl_eq he hk hl h1, h1.rne hl⟩
  | x :: xs, y :: ys =>
    have hx' : Pts e k xs := fun z hz => hx z (List.mem_cons_of_mem _ hz)
    have hy' : Pts e k ys := fun z hz => hy z (List.mem_cons_of_mem _ hz)
    simp only [List.length_cons] at hl
    obtain ⟨a1, b1⟩ := alignF_range hO hU he he0 hk xs ys hx' hy' (by omega)
    obtain ⟨a2, b2⟩ := alignF_range hO hU he he0 hk xs (y :: ys) hx' hy
      (by simp only [List.length_cons]; omega)
    obtain ⟨a3, b3⟩ := alignF_range hO hU he he0 hk (x :: xs) ys hx hy'
      (by simp only [List.length_cons]; omega)
    rw [alignF_cons_cons, alignF_cons_cons, a1, a2, a3, hU]
    have d0 : Bd e k 2 (x - y) :=
      (hx x List.mem_cons_self).sub (hy y List.mem_cons_self)
    have d1 := d0.rne (by norm_num)
    have d2 := d1.abs.add b1
    have l2 := (Bd.one (k := k) he0).add b2
    have l3 := (Bd.one (k := k) he0).add b3
    simp only [List.length_cons] at l2 l3 ⊢
    rw [hO.fl_eq he hk (by norm_num) d0, hO.fl_eq he hk (by omega) d2, hO.fl_eq he hk (by omega) l2,
      hO.fl_eq he hk (by omega) l3]
    exact ⟨rfl, (((d2.rne (by omega)).mono (by omega)).min ((l2.rne (by omega)).mono (by omega))).min
      ((l3.rne (by omega)).mono (by omega))⟩
termination_by xs.length + ys.length

/-- The value of the dynamic programme, with the shorter list as rows. -/
theorem emdDpSortedF_eq (R : FOps) (x y : List ℚ) : emdDpSortedF R x y =
    .ok (if x.length > y.length then alignF R y.reverse x.reverse else alignF R x.reverse y.reverse) := by
  unfold emdDpSortedF
  by_cases h : x.length > y.length
  · rw [if_pos h, if_pos h]
    exact dp_runF_ok y x
  · rw [if_neg h, if_neg h]
    exact dp_runF_ok x y

theorem Pts.perm {xs ys : List ℚ} (h : Pts e k xs) (hp : xs.Perm ys) : Pts e k ys :=
  fun x hx => h x (hp.mem_iff.2 hx)

theorem emdDpF_range (hO : IsDouble comp O) (hU : U.fl = rne) (he : -1074 ≤ e) (he0 : e ≤ 0)
    (hk : k ≤ 970) {xs ys : List ℚ} (hx : Pts e k xs) (hy : Pts e k ys)
    (hl : xs.length + ys.length ≤ 2 ^ 53) :
    emdDpF O xs ys = emdDpF U xs ys ∧
      ∃ c, emdDpF U xs ys = .ok c ∧ Bd e k (xs.length + ys.length) c := by
  unfold emdDpF
  rw [emdDpSortedF_eq, emdDpSortedF_eq]
  have px : (pySorted xs).reverse.Perm xs := (List.reverse_perm _).trans (pySorted_perm xs)
  have py : (pySorted ys).reverse.Perm ys := (List.reverse_perm _).trans (pySorted_perm ys)
  have h1 := alignF_range hO hU he he0 hk _ _ (hx.perm px.symm) (hy.perm py.symm)
    (by rw [px.length_eq, py.length_eq]; exact hl)
  have h2 := alignF_range hO hU he he0 hk _ _ (hy.perm py.symm) (hx.perm px.symm)
    (by rw [px.length_eq, py.length_eq]; omega)
  rw [px.length_eq, py.length_eq] at h1 h2
  rw [h1.1, h2.1]
  refine ⟨rfl, _, rfl, ?_⟩
  split
  · rw [Nat.add_comm]; exact h2.2
  · exact h1.2

theorem emdF_range (hO : IsDouble comp O) (hU : U.fl = rne) (he : -1074 ≤ e) (he0 : e ≤ 0)
    (hk : k ≤ 970) {xs ys : List ℚ} (hx : Pts e k xs) (hy : Pts e k ys)
    (hl : xs.length + ys.length ≤ 2 ^ 53) :
    emdF O xs ys = emdF U xs ys ∧ Bd e k (xs.length + ys.length) (emdF U xs ys) := by
  obtain ⟨h1, c, h2, h3⟩ := emdDpF_range hO hU he he0 hk hx hy hl
  unfold emdF
  rw [h1, h2]
  exact ⟨rfl, h3⟩

end Fp
end Verif
