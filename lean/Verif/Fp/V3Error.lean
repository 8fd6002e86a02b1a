import Verif.Fp.V3Range
import Verif.Fp.V5bError

/-!
# The rounding error of the scores of `ApproxWordListV3`
-/

namespace Verif
namespace Fp

open GramSpec IndexSpec

variable {R : Rounding}

/-- The exact contribution of one shared n-gram. -/
def part3 (n : ℤ) (q w g : List Char) : ℚ :=
  ((max ((grams n.toNat q).count g) ((gramsOf n w).count g) : ℕ) : ℚ) -
    emd (posOf (grams n.toNat q) g) (posOf (gramsOf n w) g)

theorem overlap3_eq (n : ℤ) (q w : List Char) :
    overlap3 n q w = ((shared3 n q w).map (fun g => part3 n q w g)).sum := by
  unfold overlap3
  have hs : (grams n.toNat q).toFinset ∩ (gramsOf n w).toFinset = (shared3 n q w).toFinset := by
    ext g
    rw [Finset.mem_inter, List.mem_toFinset, List.mem_toFinset, List.mem_toFinset]
    unfold shared3
    rw [List.mem_filter, mem_firsts]
    simp
  have hnd : (shared3 n q w).Nodup := List.Nodup.filter _ (nodup_firsts _)
  rw [hs, List.sum_toFinset _ hnd]
  unfold part3
  push_cast
  rfl

theorem part3F_err {n : ℤ} {q w g : List Char} {T : ℕ} (hTd : total3 n q w ≤ T) (hT : T ≤ 2 ^ 53)
    (hTu : (T : ℚ) * R.u ≤ 1 / 2) (hg : g ∈ shared3 n q w) :
    |part3F R n q w g - part3 n q w g| ≤
      4 * R.u * T * (((grams n.toNat q).count g + (gramsOf n w).count g : ℕ) : ℚ) := by
  have hu := R.u_pos
  have hc := (counts_le_total3 n q w g).trans hTd
  have hg1 : 0 < (grams n.toNat q).count g := by
    unfold shared3 at hg
    rw [List.mem_filter, mem_firsts] at hg
    exact List.count_pos_iff.2 hg.1
  have e1 := emdF_fl_err (R := R) (unit01_posOf (grams n.toNat q) g) (unit01_posOf (gramsOf n w) g)
    (by
      rw [length_posOf, length_posOf]
      refine le_trans ?_ hTu
      exact mul_le_mul_of_nonneg_right (by exact_mod_cast hc) hu.le)
  rw [length_posOf, length_posOf] at e1
  have hb := part3F_bounds (R := R) (n := n) (q := q) (w := w) (g := g) (hTd.trans hT)
  unfold part3F at hb ⊢
  unfold part3
  set E := emdF R ((posOf (grams n.toNat q) g).map R.fl) ((posOf (gramsOf n w) g).map R.fl)
  set e := emd (posOf (grams n.toNat q) g) (posOf (gramsOf n w) g)
  have he0 : 0 ≤ E := emdF_nonneg _ _
  generalize (grams n.toNat q).count g = x at *
  generalize (gramsOf n w).count g = y at *
  rw [R.nat _ (by omega)] at hb ⊢
  have e2 := R.err (((max x y : ℕ) : ℚ) - E)
  set m : ℚ := ((max x y : ℕ) : ℚ)
  set c : ℚ := ((x + y : ℕ) : ℚ)
  have hcT : c ≤ T := Nat.cast_le.2 hc
  have hc1 : 1 ≤ c := by
    have : 1 ≤ x + y := by omega
    exact Nat.one_le_cast.2 this
  have hmc : m ≤ c := by
    have : max x y ≤ x + y := by omega
    exact Nat.cast_le.2 this
  -- the difference before rounding is not negative unless it rounds to 0
  have hE : |m - E| ≤ c := by
    have h0 : 0 ≤ m := Nat.cast_nonneg _
    rw [abs_le]
    refine ⟨?_, by linarith⟩
    by_contra hlt
    have hneg : m - E < -1 := by linarith
    have h1 : R.fl (m - E) ≤ R.fl (-1) := R.mono (by linarith)
    rw [R.odd] at h1
    have h2 : R.fl 1 = 1 := by have := R.nat 1 (by norm_num); exact_mod_cast this
    rw [h2] at h1
    linarith [hb.1]
  have a1 : R.u * |m - E| ≤ R.u * c := mul_le_mul_of_nonneg_left hE hu.le
  have a2 : c * c ≤ T * c := mul_le_mul_of_nonneg_right hcT (by linarith)
  have a3 : R.u * c ≤ R.u * (T * c) := mul_le_mul_of_nonneg_left (by nlinarith) hu.le
  have a4 : R.u * (c * c) ≤ R.u * (T * c) := mul_le_mul_of_nonneg_left a2 hu.le
  have b1 := abs_le.1 e1
  have b2 := abs_le.1 (e2.trans (by linarith [a1] : _ ≤ R.u * c))
  rw [abs_le]
  constructor <;> nlinarith [b1.1, b1.2, b2.1, b2.2]

theorem sum_counts3_le {n : ℤ} {q w : List Char} :
    ((shared3 n q w).map (fun g => (grams n.toNat q).count g + (gramsOf n w).count g)).sum ≤
      total3 n q w := by
  have h1 := sum_shared3_le n q w
  have h2 : ((shared3 n q w).map (fun g => (gramsOf n w).count g)).sum ≤ (gramsOf n w).length := by
    rw [← sum_count_firsts (gramsOf n w)]
    have hnd : (shared3 n q w).Nodup := List.Nodup.filter _ (nodup_firsts _)
    have hsub : shared3 n q w ⊆ firsts (gramsOf n w) := by
      intro g hg
      unfold shared3 at hg
      rw [List.mem_filter] at hg
      rw [mem_firsts]
      simpa using hg.2
    obtain ⟨l, hl, hs⟩ := (List.subperm_of_subset hnd hsub)
    rw [← (hl.map _).sum_eq]
    exact (List.Sublist.map _ hs).sum_le_sum (fun _ _ => Nat.zero_le _)
  rw [List.sum_map_add]
  unfold total3
  omega

/-- How far rounding can move the score for one `n`. -/
theorem score3F_err {n : ℤ} (hn : 0 < n) {q w : List Char} (hq : n ≤ (q.length : ℤ) + 2) {T : ℕ}
    (hTd : q.length + w.length + 4 ≤ T) (hT : T ≤ 2 ^ 53) (hTu : (T : ℚ) * R.u ≤ 1 / 2) :
    |score3F R n q w - score3 n q w| ≤
      (4 * (T : ℚ) ^ 2 / ((q.length : ℚ) + 3 - n) + 2 * T + 2) * R.u := by
  have hu := R.u_pos
  obtain ⟨h1, h2⟩ := len3 hn hq
  have htt := (total3_le hn q w).trans hTd
  have hT0 : (0 : ℚ) ≤ T := Nat.cast_nonneg _
  obtain ⟨o1, o2⟩ := overlap3F_bounds (R := R) (htt.trans hT)
  unfold score3F score3
  set N : ℚ := (q.length : ℚ) + 3 - n with hN
  set S := overlap3F R n q w with hS
  set L := shared3 n q w with hL
  set P := (L.map (fun g => part3F R n q w g)).sum with hP
  have hp0 : ∀ g ∈ L, 0 ≤ part3F R n q w g := fun g _ => (part3F_bounds (htt.trans hT)).1
  have hP0 : 0 ≤ P := List.sum_nonneg (by
    intro x hx
    obtain ⟨g, hg, rfl⟩ := List.mem_map.1 hx
    exact hp0 g hg)
  have hPN : P ≤ N := by
    rw [← h1]
    have hs := sum_shared3_le n q w
    refine le_trans ?_ (by exact_mod_cast hs : ((((shared3 n q w).map
      (fun g => (grams n.toNat q).count g)).sum : ℕ) : ℚ) ≤ _)
    rw [Nat.cast_list_sum, List.map_map, hP]
    apply List.sum_le_sum
    intro g _
    exact (part3F_bounds (htt.trans hT)).2.trans (Nat.cast_le.2 (Nat.min_le_left _ _))
  have hm : L.length ≤ T := by
    have : L.length ≤ (L.map (fun g => (grams n.toNat q).count g)).sum := by
      have := List.length_le_sum_of_one_le (L.map (fun g => (grams n.toNat q).count g)) (by
        intro x hx
        obtain ⟨g, hg, rfl⟩ := List.mem_map.1 hx
        rw [hL] at hg
        unfold shared3 at hg
        rw [List.mem_filter, mem_firsts] at hg
        exact List.count_pos_iff.2 hg.1)
      simpa using this
    have hs := sum_shared3_le n q w
    rw [← hL] at hs
    unfold total3 at htt
    omega
  have hmq : (L.length : ℚ) ≤ T := by exact_mod_cast hm
  obtain ⟨b1, b2⟩ := foldl_add_bounds (R := R) L (fun g => part3F R n q w g) hp0 (s := 0) le_rfl
  rw [zero_add] at b1 b2
  have p1 := pow_upper (L := L.length) hu.le (le_trans (mul_le_mul_of_nonneg_right hmq hu.le) hTu)
  have p2 := one_sub_pow (R := R) L.length
  have hmu : (L.length : ℚ) * R.u ≤ T * R.u := mul_le_mul_of_nonneg_right hmq hu.le
  have s1 : S ≤ P + 2 * T * R.u * N := by
    have c1 := b2.trans (mul_le_mul_of_nonneg_right p1 hP0)
    have c2 : (L.length : ℚ) * R.u * P ≤ T * R.u * N :=
      mul_le_mul hmu hPN hP0 (by positivity)
    change S ≤ _ at c1
    linarith
  have s2 : P - 2 * T * R.u * N ≤ S := by
    have c1 := (mul_le_mul_of_nonneg_right p2 hP0).trans b1
    have c2 : (L.length : ℚ) * R.u * P ≤ T * R.u * N :=
      mul_le_mul hmu hPN hP0 (by positivity)
    have c3 : 0 ≤ T * R.u * N := by positivity
    change _ ≤ S at c1
    linarith
  have hPe : |P - overlap3 n q w| ≤ 4 * T ^ 2 * R.u := by
    rw [overlap3_eq]
    refine (sum_abs_err (fun g hg => part3F_err htt hT hTu hg)).trans ?_
    rw [List.sum_map_mul_left]
    have : ((L.map (fun g => (((grams n.toNat q).count g + (gramsOf n w).count g : ℕ) : ℚ))).sum) ≤
        T := by
      have h := (sum_counts3_le (n := n) (q := q) (w := w)).trans htt
      have e : (L.map (fun g => (((grams n.toNat q).count g + (gramsOf n w).count g : ℕ) : ℚ))).sum =
          (((L.map (fun g => (grams n.toNat q).count g + (gramsOf n w).count g)).sum : ℕ) : ℚ) := by
        rw [Nat.cast_list_sum, List.map_map]; rfl
      rw [e]
      exact_mod_cast h
    calc 4 * R.u * T * _ ≤ 4 * R.u * T * T := mul_le_mul_of_nonneg_left this (by positivity)
      _ = 4 * T ^ 2 * R.u := by ring
  have hq1 := abs_le.1 hPe
  have hSN : S / N ≤ 1 := by rw [div_le_one h2, ← h1]; exact o2
  have hSN0 : 0 ≤ S / N := div_nonneg o1 h2.le
  have hfl := abs_le.1 (R.err (S / N))
  rw [abs_of_nonneg hSN0] at hfl
  have hdiv : |S / N - overlap3 n q w / N| ≤ (4 * T ^ 2 / N + 2 * T) * R.u := by
    rw [← sub_div, abs_div, abs_of_pos h2, div_le_iff₀ h2]
    have e : (4 * (T : ℚ) ^ 2 / N + 2 * T) * R.u * N = 4 * T ^ 2 * R.u + 2 * T * R.u * N := by
      field_simp
    rw [e, abs_le]
    constructor <;> linarith [hq1.1, hq1.2]
  have hd := abs_le.1 hdiv
  have : R.u * (S / N) ≤ R.u := by nlinarith
  have e : (4 * (T : ℚ) ^ 2 / N + 2 * T + 2) * R.u = (4 * T ^ 2 / N + 2 * T) * R.u + 2 * R.u := by ring
  rw [e, abs_le]
  constructor <;> linarith [hd.1, hd.2, hfl.1, hfl.2]

/-- How far rounding can move the mean score. -/
theorem mean3F_err {ns : List ℤ} {q w : List Char}
    (hn : ∀ n ∈ ns, 0 < n ∧ n ≤ (q.length : ℤ) + 2) {T : ℕ} (hTd : q.length + w.length + 4 ≤ T)
    (hT : T ≤ 2 ^ 53) (hTu : (T : ℚ) * R.u ≤ 1 / 2)
    (hN : ((ns.length + 1 : ℕ) : ℚ) * R.u ≤ 1 / 2) (hS : (ns.length : ℕ∞) ≤ R.sumMax) :
    |mean1F R (scoreVec3F R ns q w) - mean1 (scoreVec3 ns q w)| ≤
      (4 * (T : ℚ) ^ 2 + 2 * T + 2 * ns.length + 4) * R.u := by
  have hu := R.u_pos
  have hv := scoreVec3F_floats (R := R) (w := w) hn (hTd.trans hT)
  have h0 := mean1_nonneg (fun x hx => (hv x hx).1)
  have hlen : (scoreVec3F R ns q w).length = ns.length := by simp [scoreVec3F]
  have hv1 : mean1 (scoreVec3F R ns q w) ≤ 1 := by
    unfold mean1
    rcases Nat.eq_zero_or_pos (scoreVec3F R ns q w).length with hz | hz
    · rw [hz]; simp
    rw [div_le_iff₀ (by exact_mod_cast hz)]
    have := List.sum_le_card_nsmul (scoreVec3F R ns q w) 1 (by
      intro x hx
      obtain ⟨n, h, rfl⟩ := List.mem_map.1 hx
      exact (score3F_bounds (hn n h).1 (hn n h).2 (hTd.trans hT)).2)
    rw [nsmul_eq_mul] at this
    linarith
  obtain ⟨b1, b2⟩ := mean1F_bounds (R := R) hv (by rw [hlen]; exact hS)
  rw [hlen] at b1 b2
  have p1 := pow_upper hu.le hN
  have p2 := one_sub_pow (R := R) (ns.length + 1)
  have e := mean1_err (ns := ns) (f := fun n => score3F R n q w) (g := fun n => score3 n q w)
    (δ := (4 * (T : ℚ) ^ 2 + 2 * T + 2) * R.u) (by positivity) (fun n h => by
      refine (score3F_err (hn n h).1 (hn n h).2 hTd hT hTu).trans ?_
      apply mul_le_mul_of_nonneg_right _ hu.le
      have hd : (1 : ℚ) ≤ (q.length : ℚ) + 3 - n := by
        have : (1 : ℤ) ≤ (q.length : ℤ) + 3 - n := by have := (hn n h).2; omega
        exact_mod_cast this
      have := div_le_self (by positivity : (0 : ℚ) ≤ 4 * (T : ℚ) ^ 2) hd
      linarith)
  have e' : |mean1 (scoreVec3F R ns q w) - mean1 (scoreVec3 ns q w)| ≤
    (4 * (T : ℚ) ^ 2 + 2 * T + 2) * R.u := e
  set x := mean1 (scoreVec3F R ns q w)
  set y := mean1F R (scoreVec3F R ns q w)
  have hM : 0 ≤ ((ns.length + 1 : ℕ) : ℚ) * R.u := by positivity
  have c1 : y ≤ x + 2 * ((ns.length + 1 : ℕ) : ℚ) * R.u := by
    have := mul_le_mul_of_nonneg_right p1 h0
    nlinarith
  have c2 : x - 2 * ((ns.length + 1 : ℕ) : ℚ) * R.u ≤ y := by
    have := mul_le_mul_of_nonneg_right p2 h0
    nlinarith
  have e1 := abs_le.1 e'
  push_cast at c1 c2 hM
  rw [abs_le]
  constructor <;> linarith [e1.1, e1.2]

end Fp
end Verif
