import Verif.Fp.IndexGap
import Mathlib.Algebra.Order.Ring.Pow

/-!
# What pruning can cost in rounded arithmetic: lemmas
-/

namespace Verif
namespace Fp

open EmdSpec GramSpec IndexSpec

variable {R : Rounding} {S : Type} [LinearOrder S]

/-! ## Powers of the rounding error -/

theorem one_sub_pow (m : ℕ) : 1 - (m : ℚ) * R.u ≤ (1 - R.u) ^ m := by
  have := one_add_mul_le_pow (a := -R.u) (by have := R.u_lt; linarith) m
  have e : 1 + -R.u = 1 - R.u := by ring
  rw [e] at this
  linarith

theorem pow_mul_pow_le_one (m : ℕ) : (1 - R.u) ^ m * (1 + R.u) ^ m ≤ 1 := by
  have hu := R.u_pos
  have hu' := R.u_lt
  rw [← mul_pow]
  apply pow_le_one₀ <;> nlinarith

theorem one_sub_pow_nonneg (m : ℕ) : 0 ≤ (1 - R.u) ^ m :=
  pow_nonneg (by have := R.u_lt; linarith) m

theorem one_sub_pow_anti {m k : ℕ} (h : m ≤ k) : (1 - R.u) ^ k ≤ (1 - R.u) ^ m :=
  pow_le_pow_of_le_one (by have := R.u_lt; linarith) (by have := R.u_pos; linarith) h

theorem one_add_pow_mono {m k : ℕ} (h : m ≤ k) : (1 + R.u) ^ m ≤ (1 + R.u) ^ k :=
  pow_le_pow_right₀ (by have := R.u_pos; linarith) h

/-! ## Means of scores and bounds -/

theorem mean1_le_mul {ns : List ℤ} {f g : ℤ → ℚ} {c : ℚ} (h : ∀ n ∈ ns, f n ≤ c * g n) :
    mean1 (ns.map f) ≤ c * mean1 (ns.map g) := by
  unfold mean1
  rw [List.length_map, List.length_map, ← mul_div_assoc]
  apply div_le_div_of_nonneg_right _ (Nat.cast_nonneg _)
  rw [← List.sum_map_mul_left]
  exact List.sum_le_sum h

theorem mul_le_mean1 {ns : List ℤ} {f g : ℤ → ℚ} {c : ℚ} (h : ∀ n ∈ ns, c * g n ≤ f n) :
    c * mean1 (ns.map g) ≤ mean1 (ns.map f) := by
  unfold mean1
  rw [List.length_map, List.length_map, ← mul_div_assoc]
  apply div_le_div_of_nonneg_right _ (Nat.cast_nonneg _)
  rw [← List.sum_map_mul_left]
  exact List.sum_le_sum h

/-- The exact mean of the exact lower bounds. -/
def ratioMean (ns : List ℤ) (q w : List Char) : ℚ := mean1 (ns.map (fun n => ratioN n q w))

theorem mean1_nonneg {v : List ℚ} (h : ∀ x ∈ v, 0 ≤ x) : 0 ≤ mean1 v :=
  div_nonneg (List.sum_nonneg h) (Nat.cast_nonneg _)

theorem ratioMean_nonneg (ns : List ℤ) (q w : List Char) : 0 ≤ ratioMean ns q w := by
  apply mean1_nonneg
  intro x hx
  obtain ⟨n, _, rfl⟩ := List.mem_map.1 hx
  exact ratioN_nonneg n q w

theorem two_ratioMean_le (ns : List ℤ) (q w : List Char) : 2 * ratioMean ns q w ≤ 1 := by
  unfold ratioMean mean1
  rw [List.length_map, ← mul_div_assoc]
  apply div_le_one_of_le₀ _ (Nat.cast_nonneg _)
  rw [← List.sum_map_mul_left]
  have := List.sum_le_card_nsmul (ns.map (fun n => 2 * ratioN n q w)) 1 (by
    intro x hx
    obtain ⟨n, _, rfl⟩ := List.mem_map.1 hx
    exact two_ratioN_le n q w)
  simpa using this

theorem lowerNF_nonneg (n : ℤ) (q w : List Char) : 0 ≤ lowerNF R true n q w :=
  le_trans (mul_nonneg (one_sub_pow_nonneg _) (ratioN_nonneg n q w)) (lowerNF_bounds n q w).1

theorem lowerNF_fl (normalize : Bool) (n : ℤ) (q w : List Char)
    (hT : gramsTotal n q w ≤ 2 ^ 53) : R.fl (lowerNF R normalize n q w) = lowerNF R normalize n q w := by
  unfold lowerNF
  split
  · rcases List.eq_nil_or_concat (sharedGrams n q w) with h | ⟨l, g, h⟩
    · rw [h]; exact fl_zero
    · rw [h, List.concat_eq_append, List.foldl_append, List.foldl_cons, List.foldl_nil, R.idem]
  · rw [← itemsMin_itemsN]
    apply R.nat
    have h1 := two_mul_itemsMin_le (itemsN n q w)
    have h2 := itemsLen_itemsN_le n q w
    unfold gramsTotal at hT
    omega

theorem lowerNF_nonneg' (normalize : Bool) (n : ℤ) (q w : List Char) :
    0 ≤ lowerNF R normalize n q w := by
  cases normalize
  · exact commonN_nonneg n q w
  · exact lowerNF_nonneg n q w

theorem scoreNF_fl (normalize : Bool) (n : ℤ) (q w : List Char) :
    R.fl (scoreNF R normalize n q w) = scoreNF R normalize n q w := by
  unfold scoreNF
  split
  · exact R.idem _
  · unfold simNF
    rcases List.eq_nil_or_concat (sharedGrams n q w) with h | ⟨l, g, h⟩
    · rw [h]; exact fl_zero
    · rw [h, List.concat_eq_append, List.foldl_append, List.foldl_cons, List.foldl_nil, R.idem]

theorem lowerVecF_floats {ns : List ℤ} (normalize : Bool) {q w : List Char}
    (hT : ∀ n ∈ ns, gramsTotal n q w ≤ 2 ^ 53) : Floats R (lowerVecF R ns normalize q w) := by
  intro x hx
  obtain ⟨n, hn, rfl⟩ := List.mem_map.1 hx
  exact ⟨lowerNF_nonneg' normalize n q w, lowerNF_fl normalize n q w (hT n hn)⟩

theorem scoreVecF_floats {ns : List ℤ} (normalize : Bool) {q w : List Char}
    (hT : ∀ n ∈ ns, gramsTotal n q w ≤ 2 ^ 53) : Floats R (scoreVecF R ns normalize q w) := by
  intro x hx
  obtain ⟨n, hn, rfl⟩ := List.mem_map.1 hx
  refine ⟨?_, scoreNF_fl normalize n q w⟩
  cases normalize
  · exact (commonN_nonneg n q w).trans (le_simNF (hT n hn))
  · exact scoreNF_nonneg (hT n hn)

theorem doubled_floats {v : List ℚ} (hv : Floats R v) :
    Floats R (v.map (fun x => R.fl (x * 2))) := by
  intro x hx
  obtain ⟨a, ha, rfl⟩ := List.mem_map.1 hx
  exact ⟨fl_nonneg (by have := (hv a ha).1; linarith), R.idem _⟩

theorem lower_upper {ns : List ℤ} {q w : List Char} {L : ℕ}
    (hN : (ns.length : ℕ∞) ≤ R.sumMax) (hT : ∀ n ∈ ns, gramsTotal n q w ≤ 2 ^ 53)
    (hL : ∀ n ∈ ns, (sharedGrams n q w).length ≤ L) :
    mean1F R (lowerVecF R ns true q w) ≤ (1 + R.u) ^ (ns.length + L + 2) * ratioMean ns q w := by
  have hu := R.u_pos
  refine (mean1F_bounds (R := R) (lowerVecF_floats true hT) (by
    unfold lowerVecF; rwa [List.length_map])).2.trans ?_
  unfold lowerVecF ratioMean
  rw [List.length_map, show ns.length + L + 2 = ns.length + 1 + (L + 1) by omega, pow_add _ (ns.length + 1),
    mul_assoc]
  apply mul_le_mul_of_nonneg_left _ (pow_nonneg (by linarith) _)
  apply mean1_le_mul
  intro n hn
  refine (lowerNF_bounds n q w).2.trans ?_
  apply mul_le_mul_of_nonneg_right _ (ratioN_nonneg n q w)
  exact one_add_pow_mono (by have := hL n hn; omega)

theorem two_lower_lower {ns : List ℤ} {q w : List Char} {L : ℕ}
    (hN : (ns.length : ℕ∞) ≤ R.sumMax) (hT : ∀ n ∈ ns, gramsTotal n q w ≤ 2 ^ 53)
    (hL : ∀ n ∈ ns, (sharedGrams n q w).length ≤ L) :
    (1 - R.u) ^ (ns.length + L + 3) * (2 * ratioMean ns q w) ≤
      mean1F R ((lowerVecF R ns true q w).map (fun x => R.fl (x * 2))) := by
  have hu := R.u_pos
  have hu' := R.u_lt
  refine le_trans ?_ (mean1F_bounds (R := R) (doubled_floats (lowerVecF_floats true hT)) (by
    unfold lowerVecF; rwa [List.length_map, List.length_map])).1
  unfold lowerVecF ratioMean
  rw [List.map_map]
  rw [List.length_map, show ns.length + L + 3 = ns.length + 1 + (L + 2) by omega, pow_add _ (ns.length + 1),
    mul_assoc]
  apply mul_le_mul_of_nonneg_left _ (one_sub_pow_nonneg _)
  rw [← mul_assoc]
  apply mul_le_mean1
  intro n hn
  simp only [Function.comp]
  have h1 := (lowerNF_bounds (R := R) n q w).1
  refine le_trans ?_ (fl_lower (mul_nonneg (lowerNF_nonneg n q w) (by norm_num)))
  have h2 : (1 - R.u) ^ (L + 1) * ratioN n q w ≤ lowerNF R true n q w := by
    refine le_trans (mul_le_mul_of_nonneg_right (one_sub_pow_anti ?_) (ratioN_nonneg n q w)) h1
    have := hL n hn
    omega
  have e : (1 - R.u) ^ (L + 2) * 2 * ratioN n q w =
      (1 - R.u) * ((1 - R.u) ^ (L + 1) * ratioN n q w * 2) := by ring
  rw [e]
  apply mul_le_mul_of_nonneg_left _ (by linarith)
  linarith

theorem score_upper {ns : List ℤ} {q w : List Char} (hN : (ns.length : ℕ∞) ≤ R.sumMax)
    (hT : ∀ n ∈ ns, gramsTotal n q w ≤ 2 ^ 53) :
    mean1F R (scoreVecF R ns true q w) ≤ (1 + R.u) ^ (ns.length + 2) * (2 * ratioMean ns q w) := by
  have hu := R.u_pos
  refine (mean1F_bounds (R := R) (scoreVecF_floats true hT) (by
    unfold scoreVecF; rwa [List.length_map])).2.trans ?_
  unfold scoreVecF ratioMean
  rw [List.length_map, pow_succ _ (ns.length + 1), mul_assoc]
  apply mul_le_mul_of_nonneg_left _ (pow_nonneg (by linarith) _)
  rw [← mul_assoc]
  apply mean1_le_mul
  intro n hn
  have := (scoreNF_bounds (R := R) (hT n hn)).2.1
  linarith

theorem score_lower {ns : List ℤ} {q w : List Char} {κ : ℚ} (hN : (ns.length : ℕ∞) ≤ R.sumMax)
    (hT : ∀ n ∈ ns, gramsTotal n q w ≤ 2 ^ 53)
    (hκ : ∀ n ∈ ns, (1 - R.u) * (κ * ratioN n q w) ≤ scoreNF R true n q w) :
    (1 - R.u) ^ (ns.length + 2) * (κ * ratioMean ns q w) ≤ mean1F R (scoreVecF R ns true q w) := by
  have hu' := R.u_lt
  refine le_trans ?_ (mean1F_bounds (R := R) (scoreVecF_floats true hT) (by
    unfold scoreVecF; rwa [List.length_map])).1
  unfold scoreVecF ratioMean
  rw [List.length_map, pow_succ _ (ns.length + 1), mul_assoc]
  apply mul_le_mul_of_nonneg_left _ (one_sub_pow_nonneg _)
  rw [← mul_assoc]
  apply mul_le_mean1
  intro n hn
  have := hκ n hn
  linarith

/-- A pruned word against a word whose lower bound reached the threshold. -/
theorem pruned_le {ns : List ℤ} {q w v : List Char} {L : ℕ} {κ t : ℚ} (hκ0 : 0 ≤ κ)
    (hN : (ns.length : ℕ∞) ≤ R.sumMax)
    (hLw : ∀ n ∈ ns, (sharedGrams n q w).length ≤ L) (hLv : ∀ n ∈ ns, (sharedGrams n q v).length ≤ L)
    (hTw : ∀ n ∈ ns, gramsTotal n q w ≤ 2 ^ 53) (hTv : ∀ n ∈ ns, gramsTotal n q v ≤ 2 ^ 53)
    (hκ : ∀ n ∈ ns, (1 - R.u) * (κ * ratioN n q v) ≤ scoreNF R true n q v)
    (h1 : mean1F R ((lowerVecF R ns true q w).map (fun x => R.fl (x * 2))) ≤ t)
    (h2 : t ≤ mean1F R (lowerVecF R ns true q v)) :
    (1 - ((4 * ns.length + 2 * L + 9 : ℕ) : ℚ) * R.u) * κ * mean1F R (scoreVecF R ns true q w) ≤
      mean1F R (scoreVecF R ns true q v) := by
  have hu := R.u_pos
  have hu' := R.u_lt
  have a1 := two_lower_lower (R := R) hN hTw hLw
  have a2 := lower_upper (R := R) hN hTv hLv
  have a3 := score_upper (R := R) hN hTw
  have a4 := score_lower (R := R) hN hTv hκ
  have p1 := ratioMean_nonneg ns q w
  have p2 := ratioMean_nonneg ns q v
  have s0 : 0 ≤ mean1F R (scoreVecF R ns true q w) := by
    refine le_trans (mul_nonneg (one_sub_pow_nonneg (ns.length + 2)) (mul_nonneg (zero_le_one' ℚ) p1))
      (score_lower hN hTw (κ := 1) (fun n hn => ?_))
    rw [one_mul]; exact (scoreNF_bounds (hTw n hn)).1
  set A := ratioMean ns q w
  set B := ratioMean ns q v
  set x := mean1F R (scoreVecF R ns true q w)
  set y := mean1F R (scoreVecF R ns true q v)
  have bern := one_sub_pow (R := R) (4 * ns.length + 2 * L + 9)
  refine le_trans (mul_le_mul_of_nonneg_right (mul_le_mul_of_nonneg_right bern hκ0) s0) ?_
  have e : (1 - R.u) ^ (4 * ns.length + 2 * L + 9) =
      (1 - R.u) ^ (ns.length + 2) * (1 - R.u) ^ (ns.length + L + 2) *
        ((1 - R.u) ^ (ns.length + L + 3) * (1 - R.u) ^ (ns.length + 2)) := by
    rw [← pow_add, ← pow_add, ← pow_add]; congr 1; omega
  set N := ns.length
  have q1 := pow_mul_pow_le_one (R := R) (N + 2)
  have q2 := pow_mul_pow_le_one (R := R) (N + L + 2)
  set c := (1 - R.u) ^ (N + 2)
  set d := (1 - R.u) ^ (N + L + 2)
  set f := (1 - R.u) ^ (N + L + 3)
  have c0 : 0 ≤ c := one_sub_pow_nonneg _
  have d0 : 0 ≤ d := one_sub_pow_nonneg _
  have f0 : 0 ≤ f := one_sub_pow_nonneg _
  rw [e]
  -- c * x ≤ 2 A, f * 2 A ≤ (1+u)^(N+L+2) B, d * that ≤ B, c * κ * B ≤ y
  have b1 : c * x ≤ 2 * A := by
    calc c * x ≤ c * ((1 + R.u) ^ (N + 2) * (2 * A)) := mul_le_mul_of_nonneg_left a3 c0
      _ = (c * (1 + R.u) ^ (N + 2)) * (2 * A) := by ring
      _ ≤ 1 * (2 * A) := mul_le_mul_of_nonneg_right q1 (by linarith)
      _ = 2 * A := one_mul _
  have b2 : f * (2 * A) ≤ (1 + R.u) ^ (N + L + 2) * B := a1.trans (h1.trans (h2.trans a2))
  have b3 : d * ((1 + R.u) ^ (N + L + 2) * B) ≤ B := by
    calc d * ((1 + R.u) ^ (N + L + 2) * B) = (d * (1 + R.u) ^ (N + L + 2)) * B := by ring
      _ ≤ 1 * B := mul_le_mul_of_nonneg_right q2 p2
      _ = B := one_mul _
  have b4 : d * (f * (c * x)) ≤ B :=
    le_trans (mul_le_mul_of_nonneg_left ((mul_le_mul_of_nonneg_left b1 f0).trans b2) d0) b3
  calc c * d * (f * c) * κ * x = c * (κ * (d * (f * (c * x)))) := by ring
    _ ≤ c * (κ * B) := mul_le_mul_of_nonneg_left (mul_le_mul_of_nonneg_left b4 hκ0) c0
    _ ≤ y := a4

/-! ## Selecting -/

theorem lower_le_two_lower {ns : List ℤ} {agg : List ℚ → S}
    (hagg : MonotoneAggF R ns.length agg) {normalize : Bool} {q w : List Char} (hT : ∀ n ∈ ns, gramsTotal n q w ≤ 2 ^ 53) :
    agg (lowerVecF R ns normalize q w) ≤
      agg ((lowerVecF R ns normalize q w).map (fun x => R.fl (x * 2))) := by
  apply hagg _ _ (by simp [lowerVecF]) (lowerVecF_floats normalize hT)
    (doubled_floats (lowerVecF_floats normalize hT))
  unfold lowerVecF
  rw [List.map_map, List.forall₂_map_left_iff, List.forall₂_map_right_iff]
  apply List.forall₂_same.2
  intro n hn
  simp only [Function.comp]
  conv_lhs => rw [← lowerNF_fl normalize n q w (hT n hn)]
  apply R.mono
  have := lowerNF_nonneg' (R := R) normalize n q w
  linarith

theorem mem_keptWords {agg : List ℚ → S} {ns : List ℤ} {filterN : ℤ} {normalize : Bool}
    {words : List (List Char)} {q w : List Char} {t : S} :
    w ∈ keptWords R agg ns filterN normalize words q t ↔
      w ∈ eligibleWords ns filterN q words ∧
      t ≤ agg ((lowerVecF R ns normalize q w).map (fun x => R.fl (x * 2))) := by
  unfold keptWords
  rw [List.mem_filter, decide_eq_true_eq]

theorem mem_eligibleWords {ns : List ℤ} {filterN : ℤ} {words : List (List Char)} {q w : List Char} :
    w ∈ eligibleWords ns filterN q words ↔ w ∈ words ∧ Eligible ns filterN q w := by
  unfold eligibleWords
  rw [List.mem_filter, decide_eq_true_eq]

/-- The words whose lower bounds reach the threshold are kept; so the result is as long as possible,
and is at least as good as the worst of them. -/
theorem picked_ge {agg : List ℚ → S} {ns : List ℤ} {filterN : ℤ}
    {normalize : Bool} {words : List (List Char)} (hnd : words.Nodup) {q : List Char} {t : S} {k : ℕ}
    {res : List (List Char × (S ×ₗ ℚ))}
    (h2 : ∀ v ∈ words, agg (lowerVecF R ns normalize q v) ≤
      agg ((lowerVecF R ns normalize q v).map (fun x => R.fl (x * 2))))
    (hmany : min k (eligibleWords ns filterN q words).length ≤
      ((eligibleWords ns filterN q words).filter
        (fun v => t ≤ agg (lowerVecF R ns normalize q v))).length)
    (h : PickedF R agg ns normalize (keptWords R agg ns filterN normalize words q t) k q res) :
    res.length = min k (eligibleWords ns filterN q words).length ∧
    ∀ t', (∀ v ∈ words, Eligible ns filterN q v → t ≤ agg (lowerVecF R ns normalize q v) →
      t' ≤ agg (scoreVecF R ns normalize q v)) → ∀ r ∈ res, t' ≤ (ofLex r.2).1 := by
  have hgood : ∀ v ∈ (eligibleWords ns filterN q words).filter
        (fun v => t ≤ agg (lowerVecF R ns normalize q v)),
      v ∈ keptWords R agg ns filterN normalize words q t := by
    intro v hv
    rw [List.mem_filter, decide_eq_true_eq] at hv
    exact mem_keptWords.2 ⟨hv.1, hv.2.trans (h2 v (mem_eligibleWords.1 hv.1).1)⟩
  have hne : (eligibleWords ns filterN q words).Nodup := hnd.filter _
  have hkl : (keptWords R agg ns filterN normalize words q t).length ≤
      (eligibleWords ns filterN q words).length := List.length_filter_le _ _
  have hgl := (List.subperm_of_subset (hne.filter _) hgood).length_le
  refine ⟨by rw [h.length]; omega, ?_⟩
  intro t' ht'
  refine h.ge (hne.filter _) (fun v hv => ⟨hgood v hv, ?_⟩) (le_trans ?_ hmany)
  · rw [List.mem_filter, decide_eq_true_eq] at hv
    obtain ⟨h1, h2⟩ := mem_eligibleWords.1 hv.1
    exact ht' v h1 h2 hv.2
  · omega

end Fp
end Verif
