import Verif.Fp.IndexLookup
import Verif.Fp.Props
import Mathlib.Algebra.BigOperators.Field

/-!
# Bounds for the scores of the lookup in rounded arithmetic
-/

namespace Verif
namespace Fp

open EmdSpec GramSpec IndexSpec

variable {R : Rounding}

/-! ## The similarity for one `n` -/

/-- Exact positions of the shared n-grams. -/
def itemsN (n : ℤ) (q w : List Char) : List (List ℚ × List ℚ) :=
  (sharedGrams n q w).map (fun g => (posOf (gramsOf n q) g, posOf (gramsOf n w) g))

theorem length_posOf (gs : List (List Char)) (g : List Char) : (posOf gs g).length = gs.count g := by
  rw [posOf_eq, length_locs_locatedOf]

theorem unit01_posOf (gs : List (List Char)) (g : List Char) : Unit01 (posOf gs g) := by
  rw [posOf_eq]
  exact fun _ hx => unitLocated_locatedOf gs _ (Dict.mem_locs.1 hx)

theorem simNF_eq (n : ℤ) (q w : List Char) : simNF R n q w =
    ((itemsN n q w).map fun i => (i.1.map R.fl, i.2.map R.fl)).foldl (simStep R) 0 := by
  unfold simNF itemsN
  rw [List.map_map, List.foldl_map]
  apply List.foldl_ext
  intro s g _
  simp only [simStep, Function.comp, List.length_map, length_posOf]

theorem nodup_sharedGrams (n : ℤ) (q w : List Char) : (sharedGrams n q w).Nodup :=
  (nodup_firsts _).filter _

theorem mem_sharedGrams {n : ℤ} {q w g : List Char} :
    g ∈ sharedGrams n q w ↔ g ∈ gramsOf n q ∧ g ∈ gramsOf n w := by
  unfold sharedGrams
  rw [List.mem_filter, mem_firsts, decide_eq_true_eq]

theorem toFinset_sharedGrams (n : ℤ) (q w : List Char) :
    (sharedGrams n q w).toFinset = (gramsOf n q).toFinset ∩ (gramsOf n w).toFinset := by
  ext g
  rw [List.mem_toFinset, mem_sharedGrams, Finset.mem_inter, List.mem_toFinset, List.mem_toFinset]

theorem sum_sharedGrams (n : ℤ) (q w : List Char) (f : List Char → ℚ) :
    ((sharedGrams n q w).map f).sum =
      ∑ g ∈ (gramsOf n q).toFinset ∩ (gramsOf n w).toFinset, f g := by
  rw [← toFinset_sharedGrams, List.sum_toFinset _ (nodup_sharedGrams n q w)]

theorem length_sharedGrams_le (n : ℤ) (q w : List Char) :
    (sharedGrams n q w).length ≤ (gramsOf n q).length := by
  refine (List.length_filter_le _ _).trans ?_
  exact (List.subperm_of_subset (nodup_firsts _) (fun _ h => mem_firsts.1 h)).length_le

theorem itemsMin_itemsN (n : ℤ) (q w : List Char) :
    ((itemsMin (itemsN n q w) : ℕ) : ℚ) = commonN n q w := by
  unfold commonN itemsMin itemsN
  rw [← sum_sharedGrams, List.map_map, Nat.cast_list_sum, List.map_map]
  congr 1
  apply List.map_congr_left
  intro g _
  simp [length_posOf]

theorem sum_count_le {gs : List (List Char)} {l : List (List Char)} (hl : l.Nodup) :
    (l.map (fun g => gs.count g)).sum ≤ gs.length := by
  rw [← List.sum_toFinset (fun g => gs.count g) hl]
  calc ∑ g ∈ l.toFinset, gs.count g ≤ ∑ g ∈ l.toFinset ∪ gs.toFinset, gs.count g :=
        Finset.sum_le_sum_of_subset Finset.subset_union_left
    _ = gs.length := by
        have h := sum_length_locs (locatedOf gs) (U := l.toFinset ∪ gs.toFinset) (by
          rw [gramSet_locatedOf]; exact Finset.subset_union_right)
        simp only [length_locs_locatedOf, length_locatedOf] at h
        exact_mod_cast h

theorem itemsLen_itemsN_le (n : ℤ) (q w : List Char) :
    itemsLen (itemsN n q w) ≤ (gramsOf n q).length + (gramsOf n w).length := by
  have e : itemsLen (itemsN n q w) = ((sharedGrams n q w).map (fun g => (gramsOf n q).count g)).sum +
      ((sharedGrams n q w).map (fun g => (gramsOf n w).count g)).sum := by
    unfold itemsLen itemsN
    rw [List.map_map, ← List.sum_map_add]
    congr 1
    apply List.map_congr_left
    intro g _
    simp [length_posOf]
  rw [e]
  exact Nat.add_le_add (sum_count_le (nodup_sharedGrams n q w)) (sum_count_le (nodup_sharedGrams n q w))

theorem itemsN_unit (n : ℤ) (q w : List Char) :
    ∀ i ∈ itemsN n q w, Unit01 i.1 ∧ Unit01 i.2 := by
  intro i hi
  obtain ⟨g, _, rfl⟩ := List.mem_map.1 hi
  exact ⟨unit01_posOf _ _, unit01_posOf _ _⟩

theorem itemsN_ne (n : ℤ) (q w : List Char) :
    ∀ i ∈ itemsN n q w, 2 ≤ i.1.length + i.2.length := by
  intro i hi
  obtain ⟨g, hg, rfl⟩ := List.mem_map.1 hi
  rw [mem_sharedGrams] at hg
  simp only [length_posOf]
  have h1 := List.count_pos_iff.2 hg.1
  have h2 := List.count_pos_iff.2 hg.2
  omega

/-- The number of n-grams of both words. -/
def gramsTotal (n : ℤ) (q w : List Char) : ℕ := (gramsOf n q).length + (gramsOf n w).length

theorem simNF_le {n : ℤ} {q w : List Char} (hT : gramsTotal n q w ≤ 2 ^ 53) :
    simNF R n q w ≤ 2 * commonN n q w := by
  rw [simNF_eq]
  have h := simFold_le (R := R) ((itemsN n q w).map fun i => (i.1.map R.fl, i.2.map R.fl))
    (s := 0) (c := 0) (by simp) (by
      rw [itemsLen_map]
      have := itemsLen_itemsN_le n q w
      unfold gramsTotal at hT
      omega)
  rw [itemsMin_map, Nat.zero_add, Nat.cast_mul, itemsMin_itemsN] at h
  exact_mod_cast h

theorem le_simNF {n : ℤ} {q w : List Char} (hT : gramsTotal n q w ≤ 2 ^ 53) :
    commonN n q w ≤ simNF R n q w := by
  rw [simNF_eq]
  have h := le_simFold (R := R) ((itemsN n q w).map fun i => (i.1.map R.fl, i.2.map R.fl))
    (s := 0) (c := 0) (by simp) (by
      rw [itemsLen_map]
      have := itemsLen_itemsN_le n q w
      unfold gramsTotal at hT
      omega) (by
      intro i hi
      obtain ⟨j, hj, rfl⟩ := List.mem_map.1 hi
      have := itemsN_unit n q w j hj
      exact spread1_map this.1 this.2)
  rw [itemsMin_map, Nat.zero_add, itemsMin_itemsN] at h
  exact h

theorem simNF_err {n : ℤ} {q w : List Char} (hT : gramsTotal n q w ≤ 2 ^ 53)
    (hTu : (gramsTotal n q w : ℚ) * R.u ≤ 1 / 2) :
    |simNF R n q w - simN n q w| ≤ 4 * (gramsTotal n q w : ℚ) ^ 2 * R.u := by
  have hlen := itemsLen_itemsN_le n q w
  have h := simFold_err (R := R) hT hTu (itemsN n q w) (itemsN_unit n q w) (itemsN_ne n q w)
    (s := 0) (t := 0) (c := 0) le_rfl (by simp) (by unfold gramsTotal; omega)
  have e : ((itemsN n q w).map fun i => contrib i.1 i.2).sum = simN n q w := by
    unfold itemsN simN
    rw [List.map_map, ← sum_sharedGrams]
    congr 1
    apply List.map_congr_left
    intro g _
    simp only [Function.comp, contrib, length_posOf]
  rw [e, zero_add, sub_zero, abs_zero, zero_add, ← simNF_eq] at h
  refine h.trans ?_
  have hu := R.u_pos
  have hq : ((itemsLen (itemsN n q w) : ℕ) : ℚ) ≤ (gramsTotal n q w : ℚ) := by
    exact_mod_cast hlen
  set T : ℚ := (gramsTotal n q w : ℚ) with hTd
  have hT0 : 0 ≤ T := by rw [hTd]; positivity
  calc 4 * R.u * T * ((itemsLen (itemsN n q w) : ℕ) : ℚ) ≤ 4 * R.u * T * T :=
        mul_le_mul_of_nonneg_left hq (by positivity)
    _ = _ := by ring

/-- For `n ≥ 2` this is the similarity of `ngram_movers_distance`, bit for bit. -/
theorem simNF_eq_simF {n : ℤ} (hn : 2 ≤ n) (q w : List Char) :
    simNF R n q w = simF R n.toNat q w := by
  have eg : ∀ v : List Char, (located n.toNat v) = locatedOf (gramsOf n v) := by
    intro v
    rw [← located_eq_locatedOf (by omega), getNGrams_eq_gramsOf]
  rw [simNF_eq]
  unfold simF itemsN commonItems
  have hk : commonKeys R n.toNat q w = sharedGrams n q w := by
    unfold commonKeys sharedGrams
    rw [keys_group_firsts, map_fst_locatedF, eg, eg, map_fst_locatedOf, map_fst_locatedOf]
  rw [hk]
  congr 2
  apply List.map_congr_left
  intro g _
  rw [eg, eg, posOf_eq, posOf_eq]

/-! ## Normalised scores -/

theorem commonN_pos_shares {n : ℤ} {q w : List Char} (h : 0 < commonN n q w) : Shares n q w := by
  by_contra hc
  rw [(not_shares_sums hc).1] at h
  exact lt_irrefl _ h

theorem sharedGrams_nil {n : ℤ} {q w : List Char} (h : ¬ Shares n q w) : sharedGrams n q w = [] := by
  rw [List.eq_nil_iff_forall_not_mem]
  intro g hg
  rw [mem_sharedGrams] at hg
  exact h ⟨g, hg⟩

theorem gramsTotal_le_denom {n : ℤ} {q w : List Char} (h : Shares n q w) :
    ((gramsTotal n q w : ℕ) : ℤ) ≤ denom n q w ∧ 2 ≤ gramsTotal n q w := by
  obtain ⟨g, h1, h2⟩ := h
  have l1 := List.length_pos_of_mem h1
  have l2 := List.length_pos_of_mem h2
  unfold gramsTotal
  refine ⟨?_, by omega⟩
  have e1 := length_gramsOf n q
  have e2 := length_gramsOf n w
  unfold numGrams at e1 e2
  unfold denom
  split
  · rename_i hn
    simp only [hn, if_true] at e1 e2
    push_cast
    omega
  · rename_i hn
    simp only [hn, if_false] at e1 e2
    push_cast
    omega

theorem two_commonN_le (n : ℤ) (q w : List Char) : 2 * commonN n q w ≤ gramsTotal n q w := by
  rw [← itemsMin_itemsN]
  have h1 := two_mul_itemsMin_le (itemsN n q w)
  have h2 := itemsLen_itemsN_le n q w
  unfold gramsTotal
  exact_mod_cast h1.trans h2

/-- The exact lower bound for one `n`. -/
def ratioN (n : ℤ) (q w : List Char) : ℚ := commonN n q w / denom n q w

theorem ratioN_nonneg (n : ℤ) (q w : List Char) : 0 ≤ ratioN n q w := by
  unfold ratioN
  by_cases h : Shares n q w
  · apply div_nonneg (commonN_nonneg n q w)
    have := gramsTotal_le_denom h
    have : 0 ≤ denom n q w := by omega
    exact_mod_cast this
  · rw [(not_shares_sums h).1, zero_div]

theorem two_ratioN_le (n : ℤ) (q w : List Char) : 2 * ratioN n q w ≤ 1 := by
  unfold ratioN
  by_cases h : Shares n q w
  · obtain ⟨h1, h2⟩ := gramsTotal_le_denom h
    have h1' : (gramsTotal n q w : ℚ) ≤ denom n q w := by exact_mod_cast h1
    have h2' : (2 : ℚ) ≤ gramsTotal n q w := by exact_mod_cast h2
    have h3 := two_commonN_le n q w
    rw [← mul_div_assoc, div_le_one (by linarith)]
    linarith
  · rw [(not_shares_sums h).1, zero_div]; norm_num

/-- A computed normalised score against the exact lower bound. -/
theorem scoreNF_bounds {n : ℤ} {q w : List Char} (hT : gramsTotal n q w ≤ 2 ^ 53) :
    (1 - R.u) * ratioN n q w ≤ scoreNF R true n q w ∧
    scoreNF R true n q w ≤ (1 + R.u) * (2 * ratioN n q w) ∧ scoreNF R true n q w ≤ 1 := by
  have hu := R.u_pos
  have hu' := R.u_lt
  unfold scoreNF ratioN
  rw [if_pos rfl]
  by_cases h : Shares n q w
  · obtain ⟨h1, h2⟩ := gramsTotal_le_denom h
    have h1' : (gramsTotal n q w : ℚ) ≤ denom n q w := by exact_mod_cast h1
    have h2' : (2 : ℚ) ≤ gramsTotal n q w := by exact_mod_cast h2
    have h3 := two_commonN_le n q w
    have a := le_simNF (R := R) hT
    have b := simNF_le (R := R) hT
    have c := commonN_nonneg n q w
    have hd : (0 : ℚ) < denom n q w := by linarith
    have hx : 0 ≤ simNF R n q w / denom n q w := div_nonneg (c.trans a) hd.le
    refine ⟨?_, ?_, ?_⟩
    · refine le_trans ?_ (fl_lower hx)
      apply mul_le_mul_of_nonneg_left _ (by linarith)
      exact div_le_div_of_nonneg_right a hd.le
    · refine (fl_upper hx).trans ?_
      apply mul_le_mul_of_nonneg_left _ (by linarith)
      rw [← mul_div_assoc]
      exact div_le_div_of_nonneg_right b hd.le
    · have := fl_le_nat (R := R) (x := simNF R n q w / denom n q w) (n := 1) (by norm_num) (by
        rw [Nat.cast_one, div_le_one hd]; linarith)
      simpa using this
  · have : simNF R n q w = 0 := by unfold simNF; rw [sharedGrams_nil h]; rfl
    rw [(not_shares_sums h).1, this, zero_div, fl_zero]
    simp

theorem scoreNF_nonneg {n : ℤ} {q w : List Char} (hT : gramsTotal n q w ≤ 2 ^ 53) :
    0 ≤ scoreNF R true n q w := by
  refine le_trans (mul_nonneg ?_ (ratioN_nonneg n q w)) (scoreNF_bounds hT).1
  have := R.u_lt; linarith

/-- Adding up rounded numbers one after the other. -/
theorem foldl_add_bounds {α : Type} (l : List α) (f : α → ℚ) (hf : ∀ a ∈ l, 0 ≤ f a) {s : ℚ}
    (hs : 0 ≤ s) :
    (1 - R.u) ^ l.length * (s + (l.map f).sum) ≤ l.foldl (fun s a => R.fl (s + f a)) s ∧
    l.foldl (fun s a => R.fl (s + f a)) s ≤ (1 + R.u) ^ l.length * (s + (l.map f).sum) := by
  have hu := R.u_pos
  have hu' := R.u_lt
  induction l generalizing s with
  | nil => simp
  | cons a l ih =>
    have ha := hf a (by simp)
    have hsum : 0 ≤ (l.map f).sum := List.sum_nonneg (by
      intro x hx
      obtain ⟨b, hb, rfl⟩ := List.mem_map.1 hx
      exact hf b (by simp [hb]))
    obtain ⟨i1, i2⟩ := ih (fun b hb => hf b (by simp [hb])) (s := R.fl (s + f a))
      (fl_nonneg (by linarith))
    have b1 := fl_lower (R := R) (x := s + f a) (by linarith)
    have b2 := fl_upper (R := R) (x := s + f a) (by linarith)
    rw [List.foldl_cons, List.length_cons, List.map_cons, List.sum_cons]
    constructor
    · refine le_trans ?_ i1
      rw [pow_succ, mul_assoc]
      apply mul_le_mul_of_nonneg_left _ (pow_nonneg (by linarith) _)
      nlinarith
    · refine i2.trans ?_
      rw [pow_succ, mul_assoc]
      apply mul_le_mul_of_nonneg_left _ (pow_nonneg (by linarith) _)
      nlinarith

/-- The computed lower bound against the exact one. -/
theorem lowerNF_bounds (n : ℤ) (q w : List Char) :
    (1 - R.u) ^ ((sharedGrams n q w).length + 1) * ratioN n q w ≤ lowerNF R true n q w ∧
    lowerNF R true n q w ≤ (1 + R.u) ^ ((sharedGrams n q w).length + 1) * ratioN n q w := by
  have hu := R.u_pos
  have hu' := R.u_lt
  unfold lowerNF
  rw [if_pos rfl]
  by_cases h : Shares n q w
  · obtain ⟨h1, h2⟩ := gramsTotal_le_denom h
    have hd : (0 : ℚ) ≤ denom n q w := by
      have : 0 ≤ denom n q w := by omega
      exact_mod_cast this
    let f : List Char → ℚ := fun g =>
      ((min ((gramsOf n q).count g) ((gramsOf n w).count g) : ℕ) : ℚ) / denom n q w
    have hf : ∀ g, 0 ≤ f g := fun g => div_nonneg (Nat.cast_nonneg _) hd
    have hsum : ((sharedGrams n q w).map f).sum = ratioN n q w := by
      rw [sum_sharedGrams, ← Finset.sum_div]
      rfl
    obtain ⟨b1, b2⟩ := foldl_add_bounds (R := R) (sharedGrams n q w) (fun g => R.fl (f g))
      (fun g _ => fl_nonneg (hf g)) (s := 0) le_rfl
    have s1 : (1 - R.u) * ratioN n q w ≤ ((sharedGrams n q w).map (fun g => R.fl (f g))).sum := by
      rw [← hsum, ← List.sum_map_mul_left]
      exact List.sum_le_sum (fun g _ => fl_lower (hf g))
    have s2 : ((sharedGrams n q w).map (fun g => R.fl (f g))).sum ≤ (1 + R.u) * ratioN n q w := by
      rw [← hsum, ← List.sum_map_mul_left]
      exact List.sum_le_sum (fun g _ => fl_upper (hf g))
    rw [zero_add] at b1 b2
    constructor
    · refine le_trans ?_ b1
      rw [pow_succ, mul_assoc]
      exact mul_le_mul_of_nonneg_left s1 (pow_nonneg (by linarith) _)
    · refine b2.trans ?_
      rw [pow_succ, mul_assoc]
      exact mul_le_mul_of_nonneg_left s2 (pow_nonneg (by linarith) _)
  · have : ratioN n q w = 0 := by unfold ratioN; rw [(not_shares_sums h).1, zero_div]
    rw [this, sharedGrams_nil h]
    simp

/-! ## The mean -/

/-- Non-negative floating point numbers. -/
def Floats (R : Rounding) (v : List ℚ) : Prop := ∀ x ∈ v, 0 ≤ x ∧ R.fl x = x

theorem mean1F_bounds {v : List ℚ} (hv : Floats R v) (hm : (v.length : ℕ∞) ≤ R.sumMax) :
    (1 - R.u) ^ (v.length + 1) * mean1 v ≤ mean1F R v ∧
    mean1F R v ≤ (1 + R.u) ^ (v.length + 1) * mean1 v := by
  have hu := R.u_pos
  have hu' := R.u_lt
  obtain ⟨b1, b2⟩ := R.sum_bounds v hv hm
  change _ ≤ sumF R v at b1
  change sumF R v ≤ _ at b2
  have hs : 0 ≤ v.sum := List.sum_nonneg (fun x hx => (hv x hx).1)
  have hl : (0 : ℚ) ≤ v.length := Nat.cast_nonneg _
  have h0 : 0 ≤ sumF R v := le_trans (mul_nonneg (pow_nonneg (by linarith) _) hs) b1
  unfold mean1F mean1
  constructor
  · refine le_trans ?_ (fl_lower (div_nonneg h0 hl))
    rw [pow_succ', mul_assoc]
    apply mul_le_mul_of_nonneg_left _ (by linarith)
    rw [← mul_div_assoc]
    exact div_le_div_of_nonneg_right b1 hl
  · refine (fl_upper (div_nonneg h0 hl)).trans ?_
    rw [pow_succ', mul_assoc]
    apply mul_le_mul_of_nonneg_left _ (by linarith)
    rw [← mul_div_assoc]
    exact div_le_div_of_nonneg_right b2 hl

/-- `agg` does not decrease when `m` floating point scores increase. -/
def MonotoneAggF {S : Type} [LE S] (R : Rounding) (m : ℕ) (agg : List ℚ → S) : Prop :=
  ∀ u v : List ℚ, u.length = m → Floats R u → Floats R v → List.Forall₂ (· ≤ ·) u v →
    agg u ≤ agg v

/-- `mean` with rounding is monotone as far as `sum` is. -/
theorem mean1F_monotone {m : ℕ} (hm : (m : ℕ∞) ≤ R.monoMax) : MonotoneAggF R m (mean1F R) := by
  intro u v hl hu hv h
  unfold mean1F
  rw [h.length_eq]
  exact R.mono (div_le_div_of_nonneg_right (R.sum_mono u v hu hv (by rwa [hl]) h)
    (Nat.cast_nonneg _))

/-- Twice the scores do not have a smaller mean. -/
theorem mean1F_double {v : List ℚ} (hv : Floats R v) (hm : (v.length : ℕ∞) ≤ R.sumMax) :
    mean1F R v ≤ mean1F R (v.map (fun x => R.fl (x * 2))) := by
  unfold mean1F
  rw [List.length_map]
  exact R.mono (div_le_div_of_nonneg_right (R.sum_double v hv hm) (Nat.cast_nonneg _))

theorem mean1F_le_one {v : List ℚ} (hv : Floats R v) (h1 : ∀ x ∈ v, x ≤ 1)
    (hm : (v.length : ℕ∞) ≤ R.sumMax) (hl : v.length ≤ 2 ^ 53) : mean1F R v ≤ 1 := by
  have h := R.sum_le v hv hm hl h1
  have := fl_le_nat (R := R) (x := sumF R v / v.length) (n := 1) (by norm_num) (by
    rw [Nat.cast_one]
    exact div_le_one_of_le₀ h (Nat.cast_nonneg _))
  simpa [mean1F] using this

theorem mean1F_replicate_one {m : ℕ} (hm : m ≠ 0) (hl : m ≤ 2 ^ 53) (hs : (m : ℕ∞) ≤ R.sumMax) :
    mean1F R (List.replicate m 1) = 1 := by
  unfold mean1F sumF
  rw [R.sum_ones m hs hl, List.length_replicate, div_self (by exact_mod_cast hm)]
  exact nat_fl_one R

end Fp
end Verif
