import Verif.Fp.V5bState
import Verif.Fp.IndexBest

/-!
# `ApproxWordListV5b` with floats: bounds and the whole lookup
-/

namespace Verif
namespace Fp

open GramSpec IndexSpec

variable {R : Rounding} {cf : List Char → List Char} {st stF : WL} {S : Type} [LinearOrder S]

/-! ## Doubling -/

/-- Multiplication by two commutes with rounding, as it does in binary arithmetic. -/
def ExactDouble (R : FOps) : Prop := ∀ x, R.fl (x * 2) = R.fl x * 2

theorem log_mul_two {x : ℚ} (hx : 0 < x) : Int.log 2 (x * 2) = Int.log 2 x + 1 := by
  obtain ⟨h1, h2⟩ := log_bounds hx
  have h3 : (2 : ℚ) ^ (Int.log 2 x + 1) = 2 ^ Int.log 2 x * 2 := zpow_add_one₀ (by norm_num) _
  have h4 : (2 : ℚ) ^ (Int.log 2 x + 1 + 1) = 2 ^ (Int.log 2 x + 1) * 2 :=
    zpow_add_one₀ (by norm_num) _
  have hx2 : 0 < x * 2 := by linarith
  apply le_antisymm
  · rw [← Int.lt_add_one_iff, ← Int.lt_zpow_iff_log_lt (by norm_num) hx2]
    push_cast
    rw [h4]; linarith
  · rw [← Int.zpow_le_iff_le_log (by norm_num) hx2]
    push_cast
    rw [h3]; linarith

theorem rne_double (x : ℚ) : rne (x * 2) = rne x * 2 := by
  by_cases h0 : x = 0
  · subst h0; rw [zero_mul, rne_zero, zero_mul]
  have hl : Int.log 2 |x * 2| = Int.log 2 |x| + 1 := by
    rw [abs_mul, abs_of_pos (by norm_num : (0 : ℚ) < 2)]
    exact log_mul_two (abs_pos.2 h0)
  unfold rne
  rw [hl, show Int.log 2 |x| + 1 - 52 = (Int.log 2 |x| - 52) + 1 by ring,
    zpow_add_one₀ (by norm_num : (2 : ℚ) ≠ 0), mul_div_mul_right _ _ (by norm_num : (2 : ℚ) ≠ 0)]
  ring

theorem binary64_double : ExactDouble binary64 := rne_double

theorem binary64c_double : ExactDouble binary64c := rne_double

/-! ## Bounds -/

theorem shareF_mono (normalize : Bool) {n : ℤ} {q w : List Char} (hd : 0 ≤ denom n q w) {x y : ℚ}
    (h : x ≤ y) : shareF R normalize n q w x ≤ shareF R normalize n q w y := by
  unfold shareF
  split
  · exact R.mono (div_le_div_of_nonneg_right h (by exact_mod_cast hd))
  · exact R.mono h

theorem shareF_double (hD : ExactDouble R) (normalize : Bool) (n : ℤ) (q w : List Char) (x : ℚ) :
    shareF R normalize n q w (x * 2) = shareF R normalize n q w x * 2 := by
  unfold shareF
  split
  · rw [mul_div_right_comm, hD]
  · rw [hD]

theorem denom_nonneg_of_shared {n : ℤ} {q w g : List Char} (hg : g ∈ sharedGrams n q w) :
    0 ≤ denom n q w := by
  unfold sharedGrams at hg
  rw [List.mem_filter, mem_firsts] at hg
  exact (denom_pos_of_shares ⟨g, hg.1, by simpa using hg.2⟩).le

/-- One n-gram: the contribution is at least its part of the lower bound and at most twice that. -/
theorem partF_bounds (hD : ExactDouble R) (normalize : Bool) {n : ℤ} {q w g : List Char}
    (hT : gramsTotal n q w ≤ 2 ^ 53) (hg : g ∈ sharedGrams n q w) :
    shareF R normalize n q w
      ((min ((gramsOf n q).count g) ((gramsOf n w).count g) : ℕ) : ℚ) ≤ partF R normalize n q w g ∧
    partF R normalize n q w g ≤ shareF R normalize n q w
      ((min ((gramsOf n q).count g) ((gramsOf n w).count g) : ℕ) : ℚ) * 2 := by
  have hd := denom_nonneg_of_shared hg
  have hc : (gramsOf n q).count g + (gramsOf n w).count g ≤ 2 ^ 53 := by
    have h1 := List.count_le_length (a := g) (l := gramsOf n q)
    have h2 := List.count_le_length (a := g) (l := gramsOf n w)
    unfold gramsTotal at hT
    omega
  set i : List ℚ × List ℚ := ((posOf (gramsOf n q) g).map R.fl, (posOf (gramsOf n w) g).map R.fl)
    with hidef
  have l1 : i.1.length = (gramsOf n q).count g := by simp [hidef, length_posOf]
  have l2 : i.2.length = (gramsOf n w).count g := by simp [hidef, length_posOf]
  have e : partF R normalize n q w g = shareF R normalize n q w (simStep R 0 i) := by
    unfold partF simStep
    rw [l1, l2, zero_add]
    push_cast
    rfl
  have hsp : EmdSpec.Spread1 i.1 i.2 := spread1_map (unit01_posOf _ _) (unit01_posOf _ _)
  have b1 := le_simStep (R := R) (s := 0) (c := 0) (i := i) (by simp) (by omega) hsp
  have b2 := simStep_le (R := R) (s := 0) (c := 0) (i := i) (by simp) (by omega)
  rw [l1, l2, Nat.zero_add] at b1 b2
  rw [e, ← shareF_double hD]
  refine ⟨shareF_mono normalize hd b1, shareF_mono normalize hd (b2.trans (le_of_eq ?_))⟩
  push_cast; ring

theorem shareF_nat_nonneg (normalize : Bool) {n : ℤ} {q w g : List Char}
    (hg : g ∈ sharedGrams n q w) (m : ℕ) : 0 ≤ shareF R normalize n q w (m : ℚ) := by
  have hd := denom_nonneg_of_shared hg
  unfold shareF
  split
  · exact fl_nonneg (div_nonneg (Nat.cast_nonneg _) (by exact_mod_cast hd))
  · exact fl_nonneg (Nat.cast_nonneg _)

theorem sumFold_bounds (hD : ExactDouble R) {l : List (List Char)} {a b : List Char → ℚ}
    (h : ∀ g ∈ l, 0 ≤ a g ∧ a g ≤ b g ∧ b g ≤ a g * 2) :
    ∀ s t : ℚ, 0 ≤ s → s ≤ t → t ≤ s * 2 →
    0 ≤ l.foldl (fun s g => R.fl (s + a g)) s ∧
    l.foldl (fun s g => R.fl (s + a g)) s ≤ l.foldl (fun s g => R.fl (s + b g)) t ∧
    l.foldl (fun s g => R.fl (s + b g)) t ≤ l.foldl (fun s g => R.fl (s + a g)) s * 2 := by
  induction l with
  | nil => intro s t h1 h2 h3; exact ⟨h1, h2, h3⟩
  | cons g l ih =>
    intro s t h1 h2 h3
    obtain ⟨g1, g2, g3⟩ := h g (by simp)
    rw [List.foldl_cons, List.foldl_cons]
    apply ih (fun g hg => h g (by simp [hg]))
    · exact fl_nonneg (by linarith)
    · exact R.mono (by linarith)
    · rw [← hD]; exact R.mono (by linarith)

/-- The computed score lies between the computed lower bound and its double. -/
theorem sumScoreNF_bounds (hD : ExactDouble R) (normalize : Bool) {n : ℤ} {q w : List Char}
    (hT : gramsTotal n q w ≤ 2 ^ 53) :
    0 ≤ sumLowerNF R normalize n q w ∧
    sumLowerNF R normalize n q w ≤ sumScoreNF R normalize n q w ∧
    sumScoreNF R normalize n q w ≤ sumLowerNF R normalize n q w * 2 :=
  sumFold_bounds hD (fun _ hg => ⟨shareF_nat_nonneg normalize hg _, partF_bounds hD normalize hT hg⟩)
    0 0 le_rfl le_rfl (by simp)

theorem foldl_fl (l : List (List Char)) (a : List Char → ℚ) :
    R.fl (l.foldl (fun s g => R.fl (s + a g)) 0) = l.foldl (fun s g => R.fl (s + a g)) 0 := by
  rcases List.eq_nil_or_concat l with h | ⟨l', g, h⟩
  · rw [h]; exact fl_zero
  · rw [h, List.concat_eq_append, List.foldl_append, List.foldl_cons, List.foldl_nil, R.idem]

theorem sumLowerVecF_floats (hD : ExactDouble R) {ns : List ℤ} (normalize : Bool) {q w : List Char}
    (hT : ∀ n ∈ ns, gramsTotal n q w ≤ 2 ^ 53) : Floats R (sumLowerVecF R ns normalize q w) := by
  intro x hx
  obtain ⟨n, hn, rfl⟩ := List.mem_map.1 hx
  exact ⟨(sumScoreNF_bounds hD normalize (hT n hn)).1, foldl_fl _ _⟩

theorem sumScoreVecF_floats (hD : ExactDouble R) {ns : List ℤ} (normalize : Bool) {q w : List Char}
    (hT : ∀ n ∈ ns, gramsTotal n q w ≤ 2 ^ 53) : Floats R (sumScoreVecF R ns normalize q w) := by
  intro x hx
  obtain ⟨n, hn, rfl⟩ := List.mem_map.1 hx
  have h := sumScoreNF_bounds hD normalize (hT n hn)
  exact ⟨h.1.trans h.2.1, foldl_fl _ _⟩

/-- The aggregated lower bound does not exceed the aggregated score. -/
theorem sumLower_le (hD : ExactDouble R) {ns : List ℤ} {agg : List ℚ → S}
    (hagg : MonotoneAggF R ns.length agg) (normalize : Bool) {q w : List Char}
    (hT : ∀ n ∈ ns, gramsTotal n q w ≤ 2 ^ 53) :
    agg (sumLowerVecF R ns normalize q w) ≤ agg (sumScoreVecF R ns normalize q w) := by
  apply hagg _ _ (by simp [sumLowerVecF]) (sumLowerVecF_floats hD normalize hT)
    (sumScoreVecF_floats hD normalize hT)
  unfold sumLowerVecF sumScoreVecF
  rw [List.forall₂_map_left_iff, List.forall₂_map_right_iff]
  exact List.forall₂_same.2 (fun n hn => (sumScoreNF_bounds hD normalize (hT n hn)).2.1)

/-- The aggregated score does not exceed the aggregate of the doubled lower bounds. -/
theorem sumScore_le (hD : ExactDouble R) {ns : List ℤ} {agg : List ℚ → S}
    (hagg : MonotoneAggF R ns.length agg) (normalize : Bool) {q w : List Char}
    (hT : ∀ n ∈ ns, gramsTotal n q w ≤ 2 ^ 53) :
    agg (sumScoreVecF R ns normalize q w) ≤
      agg ((sumLowerVecF R ns normalize q w).map (fun x => R.fl (x * 2))) := by
  have hf := sumLowerVecF_floats hD normalize hT
  apply hagg _ _ (by simp [sumScoreVecF]) (sumScoreVecF_floats hD normalize hT) (doubled_floats hf)
  unfold sumLowerVecF sumScoreVecF
  rw [List.map_map, List.forall₂_map_left_iff, List.forall₂_map_right_iff]
  refine List.forall₂_same.2 (fun n hn => ?_)
  have h := (sumScoreNF_bounds hD normalize (hT n hn)).2.2
  have h2 : R.fl (sumLowerNF R normalize n q w * 2) = sumLowerNF R normalize n q w * 2 := by
    rw [hD, (hf _ (List.mem_map.2 ⟨n, hn, rfl⟩)).2]
  simp only [Function.comp]
  rw [h2]; exact h

/-! ## The lookup -/

/-- The scored words, in the order in which the query comes across them. -/
theorem v5bLookupSimilarityF_spec (hi : WLInv cf st) (ho : st.Ordered) (hR : Rounded R st stF)
    (agg : List ℚ → S) {q : List Char} (hq : q ≠ []) {k : ℕ} (hk : 1 ≤ k) (normalize : Bool) :
    ∃ (t : S) (L : List ℕ), v5bLookupSimilarityF R agg stF q k normalize =
        .ok (L.map (fun i => (i, agg (sumScoreVecF R st.nList normalize q (st.wordAt i))))) ∧
      (∀ i ∈ L, st.wordList[i]? = some (st.wordAt i)) ∧
      (L.map st.wordAt = (discovered st.nList st.filterN q st.wordList).filter
        (fun w => t ≤ agg ((sumLowerVecF R st.nList normalize q w).map (fun x => R.fl (x * 2)))) ∨
        (L = [] ∧ st.eligible q = [])) ∧
      min k (st.eligible q).length ≤ ((st.eligible q).filter
        (fun p => t ≤ agg (sumLowerVecF R st.nList normalize q p.1))).length := by
  have hempty : st.eligible q = [] → ∀ r : Except PyErr (List (ℕ × S)), r = .ok [] → ∃ (t : S) (L : List ℕ),
      r = .ok (L.map (fun i => (i, agg (sumScoreVecF R st.nList normalize q (st.wordAt i))))) ∧
      (∀ i ∈ L, st.wordList[i]? = some (st.wordAt i)) ∧
      (L.map st.wordAt = (discovered st.nList st.filterN q st.wordList).filter
        (fun w => t ≤ agg ((sumLowerVecF R st.nList normalize q w).map (fun x => R.fl (x * 2)))) ∨
        (L = [] ∧ st.eligible q = [])) ∧
      min k (st.eligible q).length ≤ ((st.eligible q).filter
        (fun p => t ≤ agg (sumLowerVecF R st.nList normalize q p.1))).length := by
    rintro h r rfl
    exact ⟨agg [], [], rfl, by simp, .inr ⟨rfl, h⟩, by rw [h]; simp⟩
  obtain ⟨Q, hQe, hQ⟩ := hR
  have hR' : Rounded R st stF := ⟨Q, hQe, hQ⟩
  have hcand : stF.v5bCandidates q = st.v5bCandidates q := by rw [hQe]; rfl
  have hmin : ∀ c, v5bMinScoresF R stF q normalize c = v5bMinScoresF R st q normalize c := by
    intro c; rw [hQe]; rfl
  unfold v5bLookupSimilarityF
  rw [if_neg (by simpa using hq), hcand]
  rcases v5bCandidates_cases hi q with ⟨h1, h2⟩ | ⟨c, h1, h2⟩
  · rw [h1]
    exact hempty h2 _ rfl
  rw [h1]
  simp only [hmin, v5bMinScoresF_eq hi q normalize h2, bind, Except.bind, pure, Except.pure]
  have hperm := v5bMinUpdates_perm (R := R) hi q normalize
  generalize accumU st.nList.length [] (v5bMinUpdates R st q normalize) = ms at *
  have hlen : ms.length = (st.eligible q).length := by rw [hperm.length_eq, List.length_map]
  by_cases he : ms = []
  · subst he
    have h0 : st.eligible q = [] := by rw [← List.length_eq_zero_iff, ← hlen]; rfl
    exact hempty h0 _ rfl
  have hpos : 0 < ms.length := List.length_pos_iff.2 he
  rw [if_neg (by simpa using he), if_neg (by omega)]
  have hne : ms.map (fun p => agg p.2) ≠ [] := by simpa using he
  obtain ⟨t, ht, _, ht2⟩ := minAcceptable_spec (k := k) hk hne
  have hth : v5bThreshold (ms.map (fun p => agg p.2)) (min k ms.length) = .ok t := by
    have := v5bThreshold_eq (scores := ms.map (fun p => agg p.2)) hk hne
    rw [List.length_map] at this
    rw [this, ht]
  rw [hth]
  simp only
  rw [List.length_map, hlen] at ht2
  have hmany : min k (st.eligible q).length ≤ ((st.eligible q).filter
        (fun p => t ≤ agg (sumLowerVecF R st.nList normalize q p.1))).length := by
    refine ht2.trans (le_of_eq ?_)
    rw [((hperm.map _).filter _).length_eq, List.map_map, List.filter_map, List.length_map]
    rfl
  have hsurv : ∀ i w, st.wordList[i]? = some w → (i ∈ survivorsF R agg ms t ↔
      Eligible st.nList st.filterN q w ∧
        t ≤ agg ((sumLowerVecF R st.nList normalize q w).map (fun x => R.fl (x * 2)))) := by
    intro i w hw
    unfold survivorsF
    rw [List.mem_map]
    constructor
    · rintro ⟨⟨j, v⟩, hm, rfl⟩
      rw [List.mem_filter] at hm
      obtain ⟨hm, hle⟩ := hm
      obtain ⟨⟨w', j'⟩, hp, hpe⟩ := List.mem_map.1 (hperm.mem_iff.1 hm)
      injection hpe with h3 h4
      subst h3 h4
      obtain ⟨h5, h6⟩ := mem_eligible.1 hp
      simp only at hw h5
      rw [h5] at hw
      injection hw with hw
      subst hw
      exact ⟨h6, by simpa using hle⟩
    · rintro ⟨h3, h4⟩
      refine ⟨(i, sumLowerVecF R st.nList normalize q w), ?_, rfl⟩
      rw [List.mem_filter]
      exact ⟨hperm.mem_iff.2 (List.mem_map.2 ⟨(w, i), mem_eligible.2 ⟨hw, h3⟩, rfl⟩), by simpa using h4⟩
  have hmet : (((IndexSpec.firsts (st.metIdx q)).filter
      (fun i => i ∈ survivorsF R agg ms t))).map st.wordAt =
      (discovered st.nList st.filterN q st.wordList).filter
        (fun w => t ≤ agg ((sumLowerVecF R st.nList normalize q w).map (fun x => R.fl (x * 2)))) := by
    rw [discovered_eq, ← firsts_metIdx hi, List.filter_filter, List.filter_map]
    congr 1
    apply List.filter_congr
    intro i hi'
    have hw := mem_metIdx (Verif.mem_firsts.1 hi')
    simp only [Function.comp, hsurv i _ hw, Bool.decide_and, Bool.and_comm]
  by_cases hse : (survivorsF R agg ms t).isEmpty = true
  · rw [if_pos hse]
    refine ⟨t, [], rfl, by simp, .inl ?_, hmany⟩
    rw [← hmet, List.isEmpty_iff.1 hse]
    simp
  · rw [if_neg hse, v5bMatchScoresF_eq hi hR',
      accumU_v5bUpdates hi ho hR' (fun x => R.idem x)]
    simp only [List.map_map]
    refine ⟨t, _, rfl, ?_, .inl hmet, hmany⟩
    intro i hm
    rw [List.mem_filter, Verif.mem_firsts] at hm
    exact mem_metIdx hm.1

/-- The result of a lookup, including the order of ties. -/
theorem v5bLookupF_exact (hi : WLInv cf st) (ho : st.Ordered) (hR : Rounded R st stF)
    (hD : ExactDouble R) {agg : List ℚ → S} (hagg : MonotoneAggF R st.nList.length agg)
    {w q : List Char} {k : ℤ} (hw : w ≠ []) (hk : 0 < k)
    (hf : stF.fold cf w = q) (hq0 : q ≠ []) (hq : Clean q) (normalize : Bool)
    (hT : ∀ v ∈ st.wordList, ∀ n ∈ st.nList, gramsTotal n q v ≤ 2 ^ 53) :
    v5bLookupF R agg cf stF (.str w) (.int k) normalize =
      .ok ((best (fun v => agg (sumScoreVecF R st.nList normalize q v)) k.toNat
        (discovered st.nList st.filterN q st.wordList)).map
          (fun v => (v, agg (sumScoreVecF R st.nList normalize q v)))) := by
  have hk' : 1 ≤ k.toNat := by omega
  obtain ⟨t, L, hsc, hL2, hL3, hmany⟩ := v5bLookupSimilarityF_spec hi ho hR agg hq0 hk' normalize
  unfold v5bLookupF
  simp only [if_neg (show ¬ w.length = 0 by simpa using hw), if_neg (not_le.2 hk), hf]
  rw [if_neg (by simpa using hq0), if_neg (by rintro (h | h); exacts [hq.1 h, hq.2 h])]
  simp only [hsc, bind, Except.bind]
  rw [hR.eqs.2.1]
  generalize k.toNat = K at *
  have hdperm := discovered_perm st.nList st.filterN q hi.nodupW
  have e1 : mostCommon (L.map (fun i => (i, agg (sumScoreVecF R st.nList normalize q (st.wordAt i))))) K =
      (best (fun i => agg (sumScoreVecF R st.nList normalize q (st.wordAt i))) K L).map
        (fun i => (i, agg (sumScoreVecF R st.nList normalize q (st.wordAt i)))) := by
    unfold mostCommon
    rw [sortDesc_map, ← List.map_take]; rfl
  rw [e1, mapM_ok (g := fun p : ℕ × S => (st.wordAt p.1, p.2)) _ (by
      intro p hp
      obtain ⟨i, hi', rfl⟩ := List.mem_map.1 hp
      rw [pyGet_ok' (hL2 i (mem_best hi'))]; rfl)]
  congr 1
  have hmw : ∀ v ∈ discovered st.nList st.filterN q st.wordList, v ∈ st.wordList := by
    intro v hv
    have := hdperm.mem_iff.1 hv
    exact (mem_eligibleWords.1 this).1
  rcases hL3 with hL3 | ⟨hL3, hE⟩
  · rw [← best_filter (P := fun v => decide (t ≤
      agg ((sumLowerVecF R st.nList normalize q v).map (fun x => R.fl (x * 2))))) (t := t), ← hL3,
      best_map, List.map_map, List.map_map]
    · rfl
    · intro v hv hout
      have hle : ¬ t ≤ agg ((sumLowerVecF R st.nList normalize q v).map (fun x => R.fl (x * 2))) := by
        simpa using hout
      exact lt_of_le_of_lt (sumScore_le hD hagg normalize (hT v (hmw v hv))) (not_le.1 hle)
    · rw [(hdperm.filter _).length_eq, hdperm.length_eq, ← eligible_map_fst, List.length_map,
        List.filter_map, List.length_map]
      refine le_trans hmany ?_
      rw [← List.countP_eq_length_filter, ← List.countP_eq_length_filter]
      apply List.countP_mono_left
      rintro ⟨v, i⟩ hp hle
      have hv := List.mem_of_getElem? (mem_eligible.1 hp).1
      simp only [decide_eq_true_eq, Function.comp] at hle ⊢
      exact hle.trans (sumLower_le hD hagg normalize (hT v hv))
  · subst hL3
    have hd : discovered st.nList st.filterN q st.wordList = [] := by
      rw [← List.length_eq_zero_iff, hdperm.length_eq, ← eligible_map_fst, hE]; rfl
    rw [hd]
    simp [best_eq, sortDesc]

end Fp
end Verif
