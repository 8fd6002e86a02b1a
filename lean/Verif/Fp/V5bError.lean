import Verif.Fp.V5bProps

/-!
# The rounding error of the scores of `ApproxWordListV5b`
-/

namespace Verif
namespace Fp

open GramSpec IndexSpec

variable {R : Rounding}

/-- The computed contribution of one n-gram before the division. -/
def rawF (R : FOps) (n : ℤ) (q w g : List Char) : ℚ :=
  R.fl (R.fl (((gramsOf n q).count g + (gramsOf n w).count g : ℕ) : ℚ) -
    emdF R ((posOf (gramsOf n q) g).map R.fl) ((posOf (gramsOf n w) g).map R.fl))

theorem rawF_eq (n : ℤ) (q w g : List Char) : rawF R n q w g =
    simStep R 0 ((posOf (gramsOf n q) g).map R.fl, (posOf (gramsOf n w) g).map R.fl) := by
  unfold rawF simStep
  simp only [List.length_map, length_posOf, zero_add]
  push_cast
  rfl

theorem count_le_gramsTotal (n : ℤ) (q w g : List Char) :
    (gramsOf n q).count g + (gramsOf n w).count g ≤ gramsTotal n q w := by
  have h1 := List.count_le_length (a := g) (l := gramsOf n q)
  have h2 := List.count_le_length (a := g) (l := gramsOf n w)
  unfold gramsTotal
  omega

theorem rawF_bounds {n : ℤ} {q w g : List Char} (hT : gramsTotal n q w ≤ 2 ^ 53) :
    0 ≤ rawF R n q w g ∧
    rawF R n q w g ≤ 2 * ((min ((gramsOf n q).count g) ((gramsOf n w).count g) : ℕ) : ℚ) := by
  have hc := (count_le_gramsTotal n q w g).trans hT
  rw [rawF_eq]
  set i : List ℚ × List ℚ := ((posOf (gramsOf n q) g).map R.fl, (posOf (gramsOf n w) g).map R.fl)
    with hidef
  have l1 : i.1.length = (gramsOf n q).count g := by simp [hidef, length_posOf]
  have l2 : i.2.length = (gramsOf n w).count g := by simp [hidef, length_posOf]
  have hsp : EmdSpec.Spread1 i.1 i.2 := spread1_map (unit01_posOf _ _) (unit01_posOf _ _)
  have b1 := le_simStep (R := R) (s := 0) (c := 0) (i := i) (by simp) (by omega) hsp
  have b2 := simStep_le (R := R) (s := 0) (c := 0) (i := i) (by simp) (by omega)
  rw [l1, l2, Nat.zero_add] at b1 b2
  exact ⟨(Nat.cast_nonneg _).trans b1, by push_cast at b2 ⊢; exact b2⟩

theorem rawF_err {n : ℤ} {q w g : List Char} {T : ℕ} (hTd : gramsTotal n q w ≤ T) (hT : T ≤ 2 ^ 53)
    (hTu : (T : ℚ) * R.u ≤ 1 / 2) (hg : g ∈ sharedGrams n q w) :
    |rawF R n q w g - contrib (posOf (gramsOf n q) g) (posOf (gramsOf n w) g)| ≤
      4 * R.u * T * (((gramsOf n q).count g + (gramsOf n w).count g : ℕ) : ℚ) := by
  have hc := (count_le_gramsTotal n q w g).trans hTd
  rw [mem_sharedGrams] at hg
  have h1 := List.count_pos_iff.2 hg.1
  have h2 := List.count_pos_iff.2 hg.2
  have h := simFold_err (R := R) hT hTu [(posOf (gramsOf n q) g, posOf (gramsOf n w) g)]
    (by
      intro i hi
      rw [List.mem_singleton] at hi
      subst hi
      exact ⟨unit01_posOf _ _, unit01_posOf _ _⟩)
    (by
      intro i hi
      rw [List.mem_singleton] at hi
      subst hi
      simp only [length_posOf]
      omega)
    (s := 0) (t := 0) (c := 0) le_rfl (by simp)
    (by simp only [itemsLen, List.map_cons, List.map_nil, List.sum_cons, List.sum_nil, length_posOf]; omega)
  simp only [List.map_cons, List.map_nil, List.foldl_cons, List.foldl_nil, List.sum_cons, List.sum_nil,
    zero_add, add_zero, sub_zero, abs_zero, itemsLen, length_posOf] at h
  rw [rawF_eq]
  exact h

theorem sum_abs_err {α : Type} {l : List α} {f g e : α → ℚ} (h : ∀ a ∈ l, |f a - g a| ≤ e a) :
    |(l.map f).sum - (l.map g).sum| ≤ (l.map e).sum := by
  induction l with
  | nil => simp
  | cons a l ih =>
    have h1 := abs_le.1 (h a (by simp))
    have h2 := abs_le.1 (ih (fun b hb => h b (by simp [hb])))
    simp only [List.map_cons, List.sum_cons]
    rw [abs_le]
    constructor <;> linarith [h1.1, h1.2, h2.1, h2.2]

/-- How far rounding can move the normalised score for one `n`; and how large it can become. -/
theorem sumScoreNF_err {n : ℤ} {q w : List Char} {T : ℕ} (hTd : gramsTotal n q w ≤ T)
    (hT : T ≤ 2 ^ 53) (hT2 : 2 ≤ T) (hTu : (T : ℚ) * R.u ≤ 1 / 2) :
    |sumScoreNF R true n q w - scoreN true n q w| ≤ (5 * (T : ℚ) + 2) * R.u ∧
    0 ≤ sumScoreNF R true n q w ∧ sumScoreNF R true n q w ≤ 2 := by
  have hu := R.u_pos
  have hu' := R.u_lt
  have hTq : (gramsTotal n q w : ℚ) ≤ T := by exact_mod_cast hTd
  have hT2q : (2 : ℚ) ≤ T := by exact_mod_cast hT2
  by_cases hs : Shares n q w
  swap
  · have e : sumScoreNF R true n q w = 0 := by unfold sumScoreNF; rw [sharedGrams_nil hs]; rfl
    have e' : scoreN true n q w = 0 := by
      unfold scoreN; rw [(not_shares_sums hs).2]; simp
    rw [e, e', sub_zero, abs_zero]
    exact ⟨by positivity, le_rfl, by norm_num⟩
  obtain ⟨d1, d2⟩ := gramsTotal_le_denom hs
  have d1' : (gramsTotal n q w : ℚ) ≤ denom n q w := by exact_mod_cast d1
  have d2' : (2 : ℚ) ≤ gramsTotal n q w := by exact_mod_cast d2
  have hd : (0 : ℚ) < denom n q w := by linarith
  set L := sharedGrams n q w with hL
  set d : ℚ := ((denom n q w : ℤ) : ℚ) with hdd
  set m := L.length with hm
  -- the number of shared n-grams
  have hlen := itemsLen_itemsN_le n q w
  have hm2 : 2 * m ≤ itemsLen (itemsN n q w) := by
    have key : ∀ l : List (List ℚ × List ℚ), (∀ i ∈ l, 2 ≤ i.1.length + i.2.length) →
        2 * l.length ≤ itemsLen l := by
      intro l
      induction l with
      | nil => intro _; simp [itemsLen]
      | cons i l ih =>
        intro h
        have h1 := h i (by simp)
        have h2 := ih (fun j hj => h j (by simp [hj]))
        rw [itemsLen_cons, List.length_cons]
        omega
    have := key (itemsN n q w) (itemsN_ne n q w)
    unfold itemsN at this ⊢
    rwa [List.length_map] at this
  have hmT : 2 * m ≤ T := by unfold gramsTotal at hTd; omega
  have hmTq : 2 * (m : ℚ) ≤ T := by exact_mod_cast hmT
  -- the sum of the raw contributions
  set P : ℚ := (L.map (fun g => rawF R n q w g / d)).sum with hP
  have hraw : ∀ g, 0 ≤ rawF R n q w g := fun g => (rawF_bounds (hTd.trans hT)).1
  have hPd : P = (L.map (fun g => rawF R n q w g)).sum / d := by
    rw [hP]; simp only [div_eq_mul_inv, List.sum_map_mul_right]
  have hP0 : 0 ≤ P := List.sum_nonneg (by
    intro x hx
    obtain ⟨g, _, rfl⟩ := List.mem_map.1 hx
    exact div_nonneg (hraw g) hd.le)
  have hP1 : P ≤ 1 := by
    rw [hPd, div_le_one hd]
    have h1 : (L.map (fun g => rawF R n q w g)).sum ≤ 2 * commonN n q w := by
      rw [← itemsMin_itemsN]
      unfold itemsMin itemsN
      rw [List.map_map, Nat.cast_list_sum, List.map_map, ← List.sum_map_mul_left]
      apply List.sum_le_sum
      intro g _
      have := (rawF_bounds (R := R) (g := g) (hTd.trans hT)).2
      simpa [length_posOf] using this
    have h2 := two_commonN_le n q w
    linarith
  have hPerr : |P - scoreN true n q w| ≤ 4 * (T : ℚ) * R.u := by
    have e : scoreN true n q w = (L.map (fun g => contrib (posOf (gramsOf n q) g)
        (posOf (gramsOf n w) g))).sum / d := by
      unfold scoreN simN
      rw [if_pos rfl, ← sum_sharedGrams]
      simp only [contrib, length_posOf]
      rfl
    rw [hPd, e, ← sub_div, abs_div, abs_of_pos hd, div_le_iff₀ hd]
    have h1 := sum_abs_err (l := L) (f := fun g => rawF R n q w g)
      (g := fun g => contrib (posOf (gramsOf n q) g) (posOf (gramsOf n w) g))
      (e := fun g => 4 * R.u * T * (((gramsOf n q).count g + (gramsOf n w).count g : ℕ) : ℚ))
      (fun g hg => rawF_err hTd hT hTu hg)
    refine h1.trans ?_
    rw [List.sum_map_mul_left]
    have h2 : (L.map (fun g => (((gramsOf n q).count g + (gramsOf n w).count g : ℕ) : ℚ))).sum =
        ((itemsLen (itemsN n q w) : ℕ) : ℚ) := by
      unfold itemsLen itemsN
      rw [List.map_map, Nat.cast_list_sum, List.map_map]
      congr 1
      apply List.map_congr_left
      intro g _
      simp [length_posOf]
    rw [h2]
    have h3 : ((itemsLen (itemsN n q w) : ℕ) : ℚ) ≤ d := by
      refine le_trans ?_ d1'
      unfold gramsTotal
      exact_mod_cast hlen
    have := mul_le_mul_of_nonneg_left h3 (by positivity : 0 ≤ 4 * R.u * (T : ℚ))
    linarith
  -- the computed sum
  set S := sumScoreNF R true n q w with hS
  have hpart : ∀ g, partF R true n q w g = R.fl (rawF R n q w g / d) := by
    intro g; unfold partF shareF rawF; rw [if_pos rfl]
  obtain ⟨b1, b2⟩ := foldl_add_bounds (R := R) L (fun g => partF R true n q w g)
    (fun g _ => by rw [hpart]; exact fl_nonneg (div_nonneg (hraw g) hd.le)) (s := 0) le_rfl
  rw [zero_add] at b1 b2
  have q1 : (1 - R.u) * P ≤ (L.map (fun g => partF R true n q w g)).sum := by
    rw [hP, ← List.sum_map_mul_left]
    apply List.sum_le_sum
    intro g _
    rw [hpart]
    exact fl_lower (div_nonneg (hraw g) hd.le)
  have q2 : (L.map (fun g => partF R true n q w g)).sum ≤ (1 + R.u) * P := by
    rw [hP, ← List.sum_map_mul_left]
    apply List.sum_le_sum
    intro g _
    rw [hpart]
    exact fl_upper (div_nonneg (hraw g) hd.le)
  have c1 : (1 - R.u) ^ (m + 1) * P ≤ S := by
    refine le_trans ?_ b1
    rw [pow_succ, mul_assoc]
    exact mul_le_mul_of_nonneg_left q1 (one_sub_pow_nonneg _)
  have c2 : S ≤ (1 + R.u) ^ (m + 1) * P := by
    refine le_trans b2 ?_
    rw [pow_succ, mul_assoc]
    exact mul_le_mul_of_nonneg_left q2 (pow_nonneg (by linarith) _)
  have p1 : (1 + R.u) ^ (m + 1) ≤ 1 + (T + 2) * R.u := by
    have := pow_upper (L := m + 1) hu.le (by push_cast; nlinarith)
    push_cast at this
    nlinarith
  have p2 : 1 - (T + 2) * R.u ≤ (1 - R.u) ^ (m + 1) := by
    have := one_sub_pow (R := R) (m + 1)
    push_cast at this
    nlinarith
  have k0 : 0 ≤ ((T : ℚ) + 2) * R.u := by positivity
  have s1 : S ≤ P + (T + 2) * R.u := by
    have := mul_le_mul_of_nonneg_right p1 hP0
    nlinarith
  have s2 : P - (T + 2) * R.u ≤ S := by
    have := mul_le_mul_of_nonneg_right p2 hP0
    nlinarith
  have hP' := abs_le.1 hPerr
  refine ⟨?_, le_trans (mul_nonneg (one_sub_pow_nonneg _) hP0) c1, by nlinarith⟩
  rw [abs_le]
  constructor <;> linarith [hP'.1, hP'.2]

theorem sumScore_mean_err {ns : List ℤ} {q w : List Char} {T : ℕ}
    (hTd : q.length + w.length + 2 ≤ T) (hT : T ≤ 2 ^ 53) (hTu : (T : ℚ) * R.u ≤ 1 / 2)
    (hN : ((ns.length + 1 : ℕ) : ℚ) * R.u ≤ 1 / 2) (hS : (ns.length : ℕ∞) ≤ R.sumMax) :
    |mean1F R (sumScoreVecF R ns true q w) - mean1 (scoreVec ns true q w)| ≤
      (5 * (T : ℚ) + 4 * ns.length + 6) * R.u := by
  have hu := R.u_pos
  have hu' := R.u_lt
  have hg : ∀ n, gramsTotal n q w ≤ T := fun n => (gramsTotal_le n q w).trans hTd
  have hall := fun n => sumScoreNF_err (R := R) (hg n) hT (by omega) hTu
  have hv : Floats R (sumScoreVecF R ns true q w) := by
    intro x hx
    obtain ⟨n, _, rfl⟩ := List.mem_map.1 hx
    exact ⟨(hall n).2.1, foldl_fl _ _⟩
  have hv1 : mean1 (sumScoreVecF R ns true q w) ≤ 2 := by
    unfold mean1
    rcases Nat.eq_zero_or_pos (sumScoreVecF R ns true q w).length with hz | hz
    · rw [hz]; simp
    rw [div_le_iff₀ (by exact_mod_cast hz)]
    have := List.sum_le_card_nsmul (sumScoreVecF R ns true q w) 2 (by
      intro x hx
      obtain ⟨n, _, rfl⟩ := List.mem_map.1 hx
      exact (hall n).2.2)
    rw [nsmul_eq_mul] at this
    linarith
  have h0 := mean1_nonneg (fun x hx => (hv x hx).1)
  obtain ⟨b1, b2⟩ := mean1F_bounds (R := R) hv (by simpa [sumScoreVecF] using hS)
  have hlen : (sumScoreVecF R ns true q w).length = ns.length := by simp [sumScoreVecF]
  rw [hlen] at b1 b2
  have p1 := pow_upper hu.le hN
  have p2 := one_sub_pow (R := R) (ns.length + 1)
  have e := mean1_err (ns := ns) (f := fun n => sumScoreNF R true n q w)
    (g := fun n => scoreN true n q w) (δ := (5 * (T : ℚ) + 2) * R.u) (by positivity)
    (fun n _ => (hall n).1)
  have e' : |mean1 (sumScoreVecF R ns true q w) - mean1 (scoreVec ns true q w)| ≤
    (5 * (T : ℚ) + 2) * R.u := e
  set x := mean1 (sumScoreVecF R ns true q w)
  set y := mean1F R (sumScoreVecF R ns true q w)
  have hM : 0 ≤ ((ns.length + 1 : ℕ) : ℚ) * R.u := by positivity
  have c1 : y ≤ x + 4 * ((ns.length + 1 : ℕ) : ℚ) * R.u := by
    have := mul_le_mul_of_nonneg_right p1 h0
    nlinarith
  have c2 : x - 4 * ((ns.length + 1 : ℕ) : ℚ) * R.u ≤ y := by
    have := mul_le_mul_of_nonneg_right p2 h0
    nlinarith
  have e1 := abs_le.1 e'
  push_cast at c1 c2 hM
  rw [abs_le]
  constructor <;> linarith [e1.1, e1.2]

/-- The exact score of a different word is less than 1 by a margin. -/
theorem scoreN_ne {n : ℤ} (hn : 2 ≤ n) {q w : List Char} (hla : n ≤ (q.length : ℤ) + 2)
    (hT : gramsTotal n q w ≤ 4096) (hne : q ≠ w) :
    scoreN true n q w ≤ 1 - 1 / 17179869184 := by
  unfold scoreN
  rw [if_pos rfl]
  by_cases hs : Shares n q w
  swap
  · rw [(not_shares_sums hs).2, zero_div]; norm_num
  obtain ⟨h1, h2⟩ := gramsTotal_le_denom hs
  have h1' : (gramsTotal n q w : ℚ) ≤ denom n q w := by exact_mod_cast h1
  have h2' : (2 : ℚ) ≤ gramsTotal n q w := by exact_mod_cast h2
  have hTq : (gramsTotal n q w : ℚ) ≤ 4096 := by exact_mod_cast hT
  have hd : (0 : ℚ) < denom n q w := by linarith
  have len : ∀ v : List Char, (gramsOf n v).length = count n.toNat v := by
    intro v
    unfold gramsOf
    rw [if_pos (by omega), grams, List.length_map, List.length_range]
  have eg : ∀ v : List Char, locatedOf (gramsOf n v) = located n.toNat v := by
    intro v
    rw [← located_eq_locatedOf (by omega), getNGrams_eq_gramsOf]
  have g := locDist_ge (n := n.toNat) (a := q) (b := w) (by omega) (by omega) hne
  rw [← eg, ← eg, ← simN_eq] at g
  have hTd : (gramsTotal n q w : ℚ) = (count n.toNat q : ℚ) + count n.toNat w := by
    unfold gramsTotal; rw [len, len]; push_cast; rfl
  rw [← hTd] at g
  have far : (1 : ℚ) / 4194304 ≤ gramsTotal n q w - simN n q w := by
    refine le_trans ?_ g
    have hm : max 1 (count n.toNat q - 1) * max 1 (count n.toNat w - 1) ≤ 4194304 := by
      unfold gramsTotal at hT
      rw [len, len] at hT
      have hq1 : 1 ≤ count n.toNat q := by rw [count_eq]; omega
      by_cases hw0 : count n.toNat w = 0
      · rw [hw0]
        simp only [Nat.zero_sub, Nat.max_eq_left (Nat.zero_le 1), mul_one]
        omega
      have h1 : max 1 (count n.toNat q - 1) ≤ count n.toNat q := by omega
      have h2 : max 1 (count n.toNat w - 1) ≤ count n.toNat w := by omega
      refine (Nat.mul_le_mul h1 h2).trans ?_
      nlinarith [sq_nonneg ((count n.toNat q : ℤ) - count n.toNat w)]
    have hm1 : (0 : ℚ) < ((max 1 (count n.toNat q - 1) : ℕ) : ℚ) *
        ((max 1 (count n.toNat w - 1) : ℕ) : ℚ) := by positivity
    apply one_div_le_one_div_of_le hm1
    exact_mod_cast hm
  rw [div_le_iff₀ hd]
  refine le_trans ?_ (mul_le_mul_of_nonneg_left h1' (by norm_num))
  linarith

end Fp
end Verif
