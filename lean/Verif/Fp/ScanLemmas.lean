import Verif.Fp.IndexProps
import Verif.Fp.ScanSpec
import Verif.Fp.V5Model
import Verif.Fp.V5bState
import Verif.Index.RankLemmas

/-!
# Lemmas for the exact result of a lookup with floats
-/

namespace Verif
namespace Fp

open GramSpec IndexSpec

/-- Leaving out elements each of which is below each of enough elements does not change the result. -/
theorem best_best_kept {α S T : Type} [LinearOrder S] [LinearOrder T] {f : α → S} {g : α → T}
    (hfg : ∀ a b, f b < f a → g b ≤ g a) {k m : ℕ} (hk : 1 ≤ k) (hkm : k ≤ m) (D : List α)
    (P Q : α → Bool) (hmany : min k D.length ≤ (D.filter Q).length)
    (hlow : ∀ x ∈ D, P x = false → ∀ y ∈ D, Q y = true → f x < f y) :
    best g k (best f m (D.filter P)) = best g k (best f m D) := by
  by_cases hD : D = []
  · subst hD; rfl
  have hpos : 0 < D.length := List.length_pos_iff.2 hD
  have hQ : D.filter Q ≠ [] := by
    rw [← List.length_pos_iff]; omega
  obtain ⟨y, hy, hmin⟩ : ∃ y ∈ D.filter Q, ∀ z ∈ D.filter Q, f y ≤ f z := by
    have hne : (sortDesc f (D.filter Q)) ≠ [] := by
      intro h
      have := length_sortDesc f (D.filter Q)
      rw [h] at this
      exact hQ (List.length_eq_zero_iff.1 this.symm)
    refine ⟨(sortDesc f (D.filter Q)).getLast hne, mem_sortDesc.1 (List.getLast_mem hne), ?_⟩
    intro z hz
    have hz' : z ∈ sortDesc f (D.filter Q) := mem_sortDesc.2 hz
    have hp := sortDesc_pairwise f (D.filter Q)
    rw [← List.dropLast_append_getLast hne] at hz' hp
    rcases List.mem_append.1 hz' with h | h
    · exact (List.pairwise_append.1 hp).2.2 z h _ (by simp)
    · rw [List.mem_singleton] at h
      exact le_of_eq (by rw [← h])
  set t := f y with ht
  have hyD := List.mem_filter.1 hy
  have hcomm : (D.filter P).filter (fun x => t ≤ f x) = D.filter (fun x => t ≤ f x) := by
    rw [List.filter_filter]
    apply List.filter_congr
    intro x hx
    cases hp : P x with
    | true => simp
    | false =>
      have h := hlow x hx hp y hyD.1 hyD.2
      simpa using h
  have hlen : min k D.length ≤ (D.filter (fun x => t ≤ f x)).length := by
    refine hmany.trans ?_
    rw [← List.countP_eq_length_filter, ← List.countP_eq_length_filter]
    apply List.countP_mono_left
    intro x hx hq
    simpa using hmin x (List.mem_filter.2 ⟨hx, hq⟩)
  rw [best_best_split hfg hkm D t hlen, best_best_split hfg hkm (D.filter P) t, hcomm]
  rw [hcomm]
  have := List.length_filter_le P D
  omega

section order

variable {R : FOps} {cf : List Char → List Char} {st stF : WL} {S : Type} [LinearOrder S]

theorem normalizeRowF_fst {q : List Char} {normalize : Bool} {p r : ℕ × List ℚ}
    (h : normalizeRowF R st q normalize p = .ok r) : r.1 = p.1 := by
  unfold normalizeRowF at h
  cases h1 : pyGet st.wordLens p.1 with
  | error e => rw [h1] at h; cases h
  | ok len =>
    rw [h1] at h
    simp only [bind, Except.bind] at h
    cases normalize with
    | false =>
      simp only [Bool.false_eq_true, if_false, pure, Except.pure] at h
      injection h with h; rw [h]
    | true =>
      simp only [if_true] at h
      split at h
      · cases h
      · simp only [pure, Except.pure] at h
        injection h with h; rw [← h]

end order

variable {R : Rounding} {cf : List Char → List Char} {st stF : WL} {S : Type} [LinearOrder S]

/-- The order of the scored words. -/
theorem lookupSimilarityF_order (ho : st.Ordered) (hR : Rounded R st stF) {agg : List ℚ → S}
    {q : List Char} {k : ℕ} {normalize : Bool} {scored : List (ℕ × S)}
    (h : lookupSimilarityF R agg stF q k normalize = .ok scored) :
    ∃ possible : List ℕ, scored.map Prod.fst =
      (IndexSpec.firsts (st.metIdx q)).filter (fun i => i ∈ possible) := by
  unfold lookupSimilarityF at h
  simp only [bind, Except.bind] at h
  split at h
  · cases h
  simp only [pure, Except.pure] at h
  split at h
  · cases h
  rename_i ms _
  split at h
  · injection h with h
    exact ⟨[], by rw [← h]; simp⟩
  split at h
  · cases h
  rename_i t _
  split at h
  · cases h
  rename_i sc hsc
  split at h
  · cases h
  rename_i normed hnorm
  injection h with h
  refine ⟨survivorsF R agg ms t, ?_⟩
  have hne : ∀ n ∈ stF.nList, (getNGrams q n).length ≠ 1 := by
    intro n hn h1
    rw [matchScoresF_error q _ ⟨n, hn, h1⟩] at hsc
    cases hsc
  rw [matchScoresF_ok q _ hne] at hsc
  injection hsc with hsc
  rw [← h, List.map_map, show (Prod.fst ∘ fun p : ℕ × List ℚ => (p.1, agg p.2)) = Prod.fst from rfl,
    mapM_fst (fun p r => normalizeRowF_fst) hnorm, ← hsc]
  rw [show (accumU stF.nList.length [] (matchUpdates R stF q (survivorsF R agg ms t))).map Prod.fst =
    Dict.keys (accumU stF.nList.length [] (matchUpdates R stF q (survivorsF R agg ms t))) from rfl,
    keys_accumU_v5b, map_fst_matchUpdates hR, matchEvents_fst ho]

/-- The scored words, in order. -/
theorem lookupSimilarityF_exact (hi : WLInv cf st) (ho : st.Ordered) (hR : Rounded R st stF)
    (agg : List ℚ → S) (q : List Char) {k : ℕ} (hk : 1 ≤ k) (normalize : Bool) :
    (eligibleWords st.nList st.filterN q st.wordList = [] ∧
      lookupSimilarityF R agg stF q k normalize = .ok []) ∨
    ∃ t : S, minAcceptable ((eligibleWords st.nList st.filterN q st.wordList).map
        (fun v => agg (lowerVecF R st.nList normalize q v))) k = .ok t ∧
      (RaisesF R agg st.nList st.filterN normalize st.wordList q t →
        lookupSimilarityF R agg stF q k normalize = .error .zeroDivisionError) ∧
      (¬ RaisesF R agg st.nList st.filterN normalize st.wordList q t → ∃ L : List ℕ,
        lookupSimilarityF R agg stF q k normalize =
          .ok (L.map (fun i => (i, agg (scoreVecF R st.nList normalize q (st.wordAt i))))) ∧
        (∀ i ∈ L, st.wordList[i]? = some (st.wordAt i)) ∧
        L.map st.wordAt = (discovered st.nList st.filterN q st.wordList).filter
          (fun w => t ≤ agg ((lowerVecF R st.nList normalize q w).map (fun x => R.fl (x * 2))))) ∧
      min k (discovered st.nList st.filterN q st.wordList).length ≤
        ((discovered st.nList st.filterN q st.wordList).filter
          (fun w => t ≤ agg (lowerVecF R st.nList normalize q w))).length := by
  have hdperm := discovered_perm st.nList st.filterN q hi.nodupW
  rcases lookupSimilarityF_spec hi hR agg q hk normalize with ⟨he, hl⟩ | ⟨t, ht, hmany, hr, hok⟩
  · left
    exact ⟨by rw [← eligible_map_fst, he]; rfl, hl⟩
  right
  refine ⟨t, ?_, hr, ?_, ?_⟩
  · rw [← eligible_map_fst, List.map_map]; exact ht.1
  swap
  · rw [(hdperm.filter _).length_eq, hdperm.length_eq, ← eligible_map_fst, List.length_map,
      List.filter_map, List.length_map]
    exact hmany
  intro hf
  obtain ⟨scored, hsc, hperm⟩ := hok hf
  obtain ⟨possible, hord⟩ := lookupSimilarityF_order ho hR hsc
  have hmem : ∀ i, i ∈ scored.map Prod.fst ↔
      (st.wordAt i, i) ∈ keptF R agg st q normalize t := by
    intro i
    constructor
    · intro h
      obtain ⟨p, hp, rfl⟩ := List.mem_map.1 h
      obtain ⟨⟨w, j⟩, hp', rfl⟩ := List.mem_map.1 (hperm.mem_iff.1 hp)
      have hw := (mem_keptF.1 hp').1
      simp only
      rw [wordAt_eq hw]; exact hp'
    · intro h
      exact List.mem_map.2 ⟨_, hperm.mem_iff.2 (List.mem_map.2 ⟨_, h, rfl⟩), rfl⟩
  refine ⟨scored.map Prod.fst, ?_, ?_, ?_⟩
  · rw [hsc]
    congr 1
    rw [List.map_map]
    conv_lhs => rw [← List.map_id scored]
    apply List.map_congr_left
    intro p hp
    obtain ⟨⟨w, j⟩, hp', rfl⟩ := List.mem_map.1 (hperm.mem_iff.1 hp)
    have hw := (mem_keptF.1 hp').1
    simp [wordAt_eq hw]
  · intro i h
    exact (mem_keptF.1 ((hmem i).1 h)).1
  · rw [discovered_eq, ← firsts_metIdx hi, List.filter_filter, List.filter_map, hord]
    congr 1
    apply List.filter_congr
    intro i hi'
    have hw := mem_metIdx (Verif.mem_firsts.1 hi')
    have h1 : i ∈ possible ↔ i ∈ scored.map Prod.fst := by
      rw [hord, List.mem_filter]; simp [hi']
    have h2 : i ∈ possible ↔
        t ≤ agg ((lowerVecF R st.nList normalize q (st.wordAt i)).map (fun x => R.fl (x * 2))) ∧
          Eligible st.nList st.filterN q (st.wordAt i) := by
      rw [h1, hmem, mem_keptF]
      simp [hw, and_comm]
    simp only [Function.comp, h2, Bool.decide_and]

theorem bigramSimF_ok {q v : List Char} (hq : Clean q) (hv : Clean v) (normalize : Bool) :
    nmdF R (.str q) (.str v) (.int 2) true normalize = .ok (bigramSimF R normalize q v) := by
  have hx : ∃ x, nmdF R (.str q) (.str v) (.int 2) true normalize = .ok x := by
    rw [nmdF_valid hq hv (le_refl 2)]
    have : countInt 2 q + countInt 2 v ≠ 0 := by unfold countInt; omega
    cases normalize
    · exact ⟨_, rfl⟩
    · simp only [if_true, if_neg this]; exact ⟨_, rfl⟩
  obtain ⟨x, hx⟩ := hx
  unfold bigramSimF
  rw [hx]

/-- The result of a lookup is a full scan of the words that were not pruned. -/
theorem lookupF_exact_pruned (hi : WLInv cf st) (hR : Rounded R st stF) {agg : List ℚ → S}
    {w q : List Char} {k : ℤ} (hw : w ≠ []) (hk : 0 < k) (hf : stF.fold cf w = q) (hq : Clean q)
    (normalize : Bool) {L : List ℕ} (hL : lookupSimilarityF R agg stF q k.toNat normalize =
        .ok (L.map (fun i => (i, agg (scoreVecF R st.nList normalize q (st.wordAt i))))))
    (hL2 : ∀ i ∈ L, st.wordList[i]? = some (st.wordAt i)) :
    lookupF R agg cf stF (.str w) (.int k) normalize =
      .ok ((best (rankPairF R agg st.nList normalize q) k.toNat
        (best (fun w => agg (scoreVecF R st.nList normalize q w)) (2 * k.toNat)
          (L.map st.wordAt))).map (fun w => (w, rankPairF R agg st.nList normalize q w))) := by
  unfold lookupF
  rw [checkLookup_ok hw hk hf hq]
  simp only [bind, Except.bind]
  rw [hL]
  simp only
  generalize k.toNat = K
  have e1 : mostCommon (L.map (fun i => (i, agg (scoreVecF R st.nList normalize q (st.wordAt i)))))
      (K * 2) = (best (fun i => agg (scoreVecF R st.nList normalize q (st.wordAt i))) (2 * K) L).map
        (fun i => (i, agg (scoreVecF R st.nList normalize q (st.wordAt i)))) := by
    unfold mostCommon
    rw [sortDesc_map, ← List.map_take, Nat.mul_comm]; rfl
  rw [e1]
  have hr : ∀ i ∈ L, ∀ s : S, rescoreF R stF q normalize (i, s) =
      .ok (i, toLex (s, bigramSimF R normalize q (st.wordAt i))) := by
    intro i hi' s
    obtain ⟨x, hx, hr⟩ := rescoreF_ok hi hR hq normalize (hL2 i hi') s
    rw [hr]; unfold bigramSimF; rw [hx]
  set B := best (fun i => agg (scoreVecF R st.nList normalize q (st.wordAt i))) (2 * K) L with hB
  rw [mapM_ok (g := fun p : ℕ × S => (p.1, toLex (p.2, bigramSimF R normalize q (st.wordAt p.1)))) _
    (by
      intro p hp
      obtain ⟨i, hi', rfl⟩ := List.mem_map.1 hp
      exact hr i (mem_best hi') _)]
  simp only
  rw [List.map_map]
  have e2 : mostCommon (B.map ((fun p : ℕ × S =>
      (p.1, (toLex (p.2, bigramSimF R normalize q (st.wordAt p.1)) : S ×ₗ ℚ))) ∘
      fun i => (i, agg (scoreVecF R st.nList normalize q (st.wordAt i))))) K =
      (best (fun i => rankPairF R agg st.nList normalize q (st.wordAt i)) K B).map
        (fun i => (i, rankPairF R agg st.nList normalize q (st.wordAt i))) := by
    unfold mostCommon
    rw [sortDesc_map, ← List.map_take]; rfl
  rw [e2, mapM_ok (g := fun p : ℕ × (S ×ₗ ℚ) => (st.wordAt p.1, p.2)) _ (by
      intro p hp
      obtain ⟨i, hi', rfl⟩ := List.mem_map.1 hp
      rw [hR.eqs.2.1, pyGet_ok' (hL2 i (mem_best (mem_best hi')))]; rfl)]
  rw [best_map, best_map, List.map_map, List.map_map]
  rfl

theorem rankPairF_le {agg : List ℚ → S} {ns : List ℤ} {normalize : Bool} {q a b : List Char}
    (h : agg (scoreVecF R ns normalize q b) < agg (scoreVecF R ns normalize q a)) :
    rankPairF R agg ns normalize q b ≤ rankPairF R agg ns normalize q a :=
  Prod.Lex.le_iff.2 (Or.inl h)

/-- The result of a V5 lookup, given the words that were not pruned. -/
theorem lookupV5F_exact_pruned (hR : Rounded R st stF) {agg : List ℚ → ℚ}
    {w q : List Char} {k : ℤ} (hw : w ≠ []) (hk : 0 < k) (hf : stF.fold cf w = q) (hq : Clean q)
    (invert normalize : Bool) {L : List ℕ} (hL : lookupSimilarityF R agg stF q k.toNat normalize =
        .ok (L.map (fun i => (i, agg (scoreVecF R st.nList normalize q (st.wordAt i))))))
    (hL2 : ∀ i ∈ L, st.wordList[i]? = some (st.wordAt i)) :
    lookupV5F R agg cf stF (.str w) (.int k) invert normalize =
      .ok (sortDesc Prod.snd ((best (fun w => agg (scoreVecF R st.nList normalize q w))
        (2 * k.toNat) (L.map st.wordAt)).map (fun w =>
          (w, if invert then agg (scoreVecF R st.nList normalize q w)
            else R.fl ((if normalize then 1 else 0) - agg (scoreVecF R st.nList normalize q w)))))) := by
  unfold lookupV5F
  rw [checkLookup_ok hw hk hf hq]
  simp only [bind, Except.bind]
  rw [hL]
  simp only
  generalize k.toNat = K
  have e1 : mostCommon (L.map (fun i => (i, agg (scoreVecF R st.nList normalize q (st.wordAt i)))))
      (K * 2) = (best (fun i => agg (scoreVecF R st.nList normalize q (st.wordAt i))) (2 * K) L).map
        (fun i => (i, agg (scoreVecF R st.nList normalize q (st.wordAt i)))) := by
    unfold mostCommon
    rw [sortDesc_map, ← List.map_take, Nat.mul_comm]; rfl
  rw [e1, mapM_ok (g := fun p : ℕ × ℚ => (st.wordAt p.1,
    if invert then p.2 else R.fl ((if normalize then 1 else 0) - p.2))) _ (by
      intro p hp
      obtain ⟨i, hi', rfl⟩ := List.mem_map.1 hp
      rw [hR.eqs.2.1, pyGet_ok' (hL2 i (mem_best hi'))]; rfl)]
  rw [best_map, List.map_map, List.map_map]
  rfl

/-- A lookup that returns is a full scan, if pruned words are worse than those that set the threshold. -/
theorem lookupF_full_scan (hi : WLInv cf st) (ho : st.Ordered) (hR : Rounded R st stF)
    {agg : List ℚ → S} {w q : List Char} {k : ℤ} (hw : w ≠ []) (hk : 0 < k)
    (hf : stF.fold cf w = q) (hq : Clean q) (normalize : Bool)
    (hok : ∃ res, lookupF R agg cf stF (.str w) (.int k) normalize = .ok res)
    (hprune : ∀ (t : S), ∀ x ∈ eligibleWords st.nList st.filterN q st.wordList,
      ∀ y ∈ eligibleWords st.nList st.filterN q st.wordList,
      agg ((lowerVecF R st.nList normalize q x).map (fun x => R.fl (x * 2))) < t →
      t ≤ agg (lowerVecF R st.nList normalize q y) →
      agg (scoreVecF R st.nList normalize q x) < agg (scoreVecF R st.nList normalize q y)) :
    lookupF R agg cf stF (.str w) (.int k) normalize =
      .ok ((fullScanF R agg st.nList st.filterN normalize st.wordList k.toNat q).map
        (fun v => (v, rankPairF R agg st.nList normalize q v))) := by
  have hk' : 1 ≤ k.toNat := by omega
  have hdperm := discovered_perm st.nList st.filterN q hi.nodupW
  rcases lookupSimilarityF_exact hi ho hR agg q hk' normalize with ⟨he, hl⟩ | ⟨t, _, hr, hs, hmany⟩
  · have hd : discovered st.nList st.filterN q st.wordList = [] := by
      rw [← List.length_eq_zero_iff, hdperm.length_eq, he]; rfl
    have := lookupF_exact_pruned hi hR (agg := agg) hw hk hf hq normalize (L := []) hl (by simp)
    rw [this]
    unfold fullScanF
    rw [hd]
    rfl
  · by_cases hra : RaisesF R agg st.nList st.filterN normalize st.wordList q t
    · obtain ⟨res, hres⟩ := hok
      unfold lookupF at hres
      rw [checkLookup_ok hw hk hf hq] at hres
      simp only [bind, Except.bind, hr hra] at hres
      cases hres
    · obtain ⟨L, h1, h2, h3⟩ := hs hra
      rw [lookupF_exact_pruned hi hR hw hk hf hq normalize h1 h2, h3]
      unfold fullScanF
      rw [best_best_kept (fun a b h => rankPairF_le h) hk' (by omega) _ _
        (fun w => decide (t ≤ agg (lowerVecF R st.nList normalize q w))) hmany]
      intro x hx hPx y hy hQy
      exact hprune t x (hdperm.mem_iff.1 hx) y (hdperm.mem_iff.1 hy) (by simpa using hPx)
        (by simpa using hQy)

/-- Unnormalised scores are at most twice the lower bounds. -/
theorem lower_two_score {ns : List ℤ} {agg : List ℚ → S} (hagg : MonotoneAggF R ns.length agg)
    {q v : List Char} (hT : ∀ n ∈ ns, gramsTotal n q v ≤ 2 ^ 53) :
    agg (scoreVecF R ns false q v) ≤
      agg ((lowerVecF R ns false q v).map (fun x => R.fl (x * 2))) := by
  apply hagg _ _ (by simp [scoreVecF]) (scoreVecF_floats false hT)
    (doubled_floats (lowerVecF_floats false hT))
  unfold scoreVecF lowerVecF
  rw [List.map_map, List.forall₂_map_left_iff, List.forall₂_map_right_iff]
  apply List.forall₂_same.2
  intro n hn
  have hTn := hT n hn
  simp only [scoreNF, lowerNF, Function.comp, Bool.false_eq_true, if_false]
  refine (simNF_le hTn).trans ?_
  have e : R.fl (commonN n q v * 2) = commonN n q v * 2 := by
    rw [← itemsMin_itemsN]
    have h1 := two_mul_itemsMin_le (itemsN n q v)
    have h2 := itemsLen_itemsN_le n q v
    unfold gramsTotal at hTn
    have := R.nat (itemsMin (itemsN n q v) * 2) (by omega)
    push_cast at this
    exact this
  rw [e]; linarith

/-- Unnormalised scores are at least the lower bounds. -/
theorem lower_le_score {ns : List ℤ} {agg : List ℚ → S} (hagg : MonotoneAggF R ns.length agg)
    {q v : List Char} (hT : ∀ n ∈ ns, gramsTotal n q v ≤ 2 ^ 53) :
    agg (lowerVecF R ns false q v) ≤ agg (scoreVecF R ns false q v) := by
  apply hagg _ _ (by simp [lowerVecF]) (lowerVecF_floats false hT) (scoreVecF_floats false hT)
  unfold scoreVecF lowerVecF
  rw [List.forall₂_map_left_iff, List.forall₂_map_right_iff]
  apply List.forall₂_same.2
  intro n hn
  simp only [scoreNF, lowerNF, Bool.false_eq_true, if_false]
  exact le_simNF (hT n hn)

/-- Computed scores of eligible words are positive. -/
theorem mean_score_pos {ns : List ℤ} (hS : (ns.length : ℕ∞) ≤ R.sumMax) {q w : List Char}
    (hT : ∀ n ∈ ns, gramsTotal n q w ≤ 2 ^ 53) (h : ∃ n ∈ ns, Shares n q w) :
    0 < mean1F R (scoreVecF R ns true q w) := by
  have h1 := scoreVecF_floats (R := R) true hT
  have hu' := R.u_lt
  refine lt_of_lt_of_le (mul_pos (pow_pos (by linarith) _) ?_)
    (mean1F_bounds h1 (by unfold scoreVecF; rwa [List.length_map])).1
  obtain ⟨n, hn, hs⟩ := h
  have hpos : 0 < scoreNF R true n q w := by
    refine lt_of_lt_of_le (mul_pos (by linarith) ?_) (scoreNF_bounds (hT n hn)).1
    unfold ratioN
    have c1 : 0 < commonN n q w := by
      obtain ⟨g, hg, hg'⟩ := hs
      have hmem : g ∈ (gramsOf n q).toFinset ∩ (gramsOf n w).toFinset := by
        rw [Finset.mem_inter, List.mem_toFinset, List.mem_toFinset]; exact ⟨hg, hg'⟩
      refine lt_of_lt_of_le ?_ (Finset.single_le_sum (f := fun g =>
        ((min ((gramsOf n q).count g) ((gramsOf n w).count g) : ℕ) : ℚ))
        (fun _ _ => Nat.cast_nonneg _) hmem)
      have : 0 < min ((gramsOf n q).count g) ((gramsOf n w).count g) :=
        lt_min (List.count_pos_iff.2 hg) (List.count_pos_iff.2 hg')
      exact_mod_cast this
    have hd : 0 < denom n q w := by have := gramsTotal_le_denom hs; omega
    exact div_pos c1 (by exact_mod_cast hd)
  unfold mean1 scoreVecF
  rw [List.length_map]
  apply div_pos
  · refine lt_of_lt_of_le hpos (List.single_le_sum (fun x hx => ?_) _ (List.mem_map.2 ⟨n, hn, rfl⟩))
    exact (h1 x hx).1
  · exact_mod_cast List.length_pos_of_mem hn

end Fp
end Verif
