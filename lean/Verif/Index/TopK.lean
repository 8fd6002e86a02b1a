import Verif.Index.Lookup
import Mathlib.Algebra.Order.Ring.Defs

/-!
# Best scores of a lookup
-/

namespace Verif

open GramSpec IndexSpec

variable {cf : List Char → List Char} {st : WL} {S : Type} [LinearOrder S]

/-- The best `k` scores are determined. -/
theorem topScores_unique {all : List S} {k : ℕ} {A B : List S} (hA : TopScores all k A)
    (hB : TopScores all k B) : A = B := by
  obtain ⟨ra, pa, la, sa, da⟩ := hA
  obtain ⟨rb, pb, lb, sb, db⟩ := hB
  have hs : ∀ (T R : List S), T.Pairwise (fun a b => b ≤ a) → (∀ a ∈ T, ∀ b ∈ R, b ≤ a) →
      (T ++ sortDesc id R).Pairwise (fun a b => b ≤ a) := by
    intro T R h1 h2
    rw [List.pairwise_append]
    exact ⟨h1, sortDesc_pairwise id R, fun a ha b hb => h2 a ha b (mem_sortDesc.1 hb)⟩
  have hp : (A ++ sortDesc id ra).Perm (B ++ sortDesc id rb) :=
    ((List.Perm.append_left A (sortDesc_perm id ra)).trans pa).trans
      ((List.Perm.append_left B (sortDesc_perm id rb)).trans pb).symm
  have he : A ++ sortDesc id ra = B ++ sortDesc id rb :=
    List.Perm.eq_of_pairwise (le := fun a b => b ≤ a) (fun a b _ _ h1 h2 => le_antisymm h2 h1)
      (hs A ra sa da) (hs B rb sb db) hp
  exact (List.append_inj he (by rw [la, lb])).1

theorem length_filter_ge_le {l : List S} (h : l.Pairwise (fun a b => b ≤ a)) {j : Nat}
    (hj : j < l.length) {t : S} (ht : l[j] < t) : (l.filter (fun x => t ≤ x)).length ≤ j := by
  have h0 : (l.drop j).filter (fun x => t ≤ x) = [] := by
    rw [List.filter_eq_nil_iff]
    intro x hx
    rw [List.drop_eq_getElem_cons hj, List.mem_cons] at hx
    have hx' : x ≤ l[j] := by
      rcases hx with rfl | hx
      · exact le_refl _
      · have h2 := h
        rw [← List.take_append_drop j l, List.pairwise_append, List.drop_eq_getElem_cons hj,
          List.pairwise_cons] at h2
        exact h2.2.1.1 x hx
    simpa using lt_of_le_of_lt hx' ht
  conv_lhs => rw [← List.take_append_drop j l, List.filter_append, h0, List.append_nil]
  exact le_trans (List.length_filter_le _ _) (by simp)

/-- The first `k` of the surviving words have the best scores of all eligible words. -/
theorem topScores_of_perm {agg : List ℚ → S} {q : List Char} {k : ℕ} {normalize : Bool}
    {scored : List (ℕ × S)}
    (hperm : scored.Perm ((st.unpruned agg q k normalize).map
      (fun p => (p.2, agg (scoreVec st.nList normalize q p.1))))) {t : S}
    (hlow : ∀ p ∈ st.eligible q, p ∉ st.unpruned agg q k normalize →
      agg (scoreVec st.nList normalize q p.1) < t)
    (hmany : min k (st.eligible q).length ≤ ((st.unpruned agg q k normalize).filter
      (fun p => t ≤ agg (scoreVec st.nList normalize q p.1))).length) :
    (∀ r ∈ scored, ∃ w, st.wordList[r.1]? = some w ∧ Eligible st.nList st.filterN q w ∧
      r.2 = agg (scoreVec st.nList normalize q w)) ∧
    (scored.map Prod.fst).Nodup ∧
    TopScores ((eligibleWords st.nList st.filterN q st.wordList).map
        (fun w => agg (scoreVec st.nList normalize q w))) k
      (((sortDesc Prod.snd scored).map Prod.snd).take k) := by
  refine ⟨?_, ?_, ?_⟩
  · intro r hr
    obtain ⟨⟨w, i⟩, hp, rfl⟩ := List.mem_map.1 (hperm.mem_iff.1 hr)
    unfold WL.unpruned at hp
    rw [List.mem_filter] at hp
    obtain ⟨h3, h4⟩ := mem_eligible.1 hp.1
    exact ⟨w, h3, h4, rfl⟩
  · rw [(hperm.map Prod.fst).nodup_iff, List.map_map]
    exact (List.Sublist.map Prod.snd List.filter_sublist).nodup (nodup_eligible_snd q)
  · set sc : List Char × ℕ → S := fun p => agg (scoreVec st.nList normalize q p.1) with hsc
    set A := (sortDesc Prod.snd scored).map Prod.snd with hA
    set B := ((st.eligible q).filter (fun p =>
      ¬ decide (¬ Outranked agg st.nList st.filterN normalize q st.wordList k p.1) = true)).map sc with hB
    have hAp : A.Perm ((st.unpruned agg q k normalize).map sc) := by
      refine ((sortDesc_perm Prod.snd scored).map Prod.snd).trans ?_
      refine (hperm.map Prod.snd).trans ?_
      rw [List.map_map]; exact List.Perm.refl _
    have hAs : A.Pairwise (fun a b => b ≤ a) := by
      rw [hA, List.pairwise_map]; exact sortDesc_pairwise _ _
    have hE : (A ++ B).Perm ((eligibleWords st.nList st.filterN q st.wordList).map
        (fun w => agg (scoreVec st.nList normalize q w))) := by
      refine (List.Perm.append_right B hAp).trans ?_
      rw [hB, ← List.map_append, ← eligible_map_fst, List.map_map]
      refine List.Perm.map _ ?_
      have := List.filter_append_perm
        (fun p : List Char × ℕ => decide (¬ Outranked agg st.nList st.filterN normalize q st.wordList k p.1))
        (st.eligible q)
      refine List.Perm.trans (List.Perm.of_eq ?_) this
      unfold WL.unpruned
      congr 2
      funext p
      by_cases ho : Outranked agg st.nList st.filterN normalize q st.wordList k p.1 <;> simp [ho]
    have hlenA : A.length = (st.unpruned agg q k normalize).length := by
      rw [hAp.length_eq, List.length_map]
    have hle : A.length ≤ (st.eligible q).length := by
      rw [hlenA]; exact List.length_filter_le _ _
    have hlenE : ((eligibleWords st.nList st.filterN q st.wordList).map
        (fun w => agg (scoreVec st.nList normalize q w))).length = (st.eligible q).length := by
      rw [← eligible_map_fst, List.length_map, List.length_map]
    have hcnt : (A.filter (fun x => t ≤ x)).length = ((st.unpruned agg q k normalize).filter
            (fun p => t ≤ agg (scoreVec st.nList normalize q p.1))).length := by
      rw [(hAp.filter _).length_eq, List.filter_map, List.length_map]; rfl
    have hge : min k (st.eligible q).length ≤ A.length :=
      le_trans (le_trans hmany hcnt.ge) (List.length_filter_le _ _)
    refine ⟨A.drop k ++ B, ?_, ?_, ?_, ?_⟩
    · rw [← List.append_assoc, List.take_append_drop]; exact hE
    · rw [List.length_take, hlenE]; omega
    · exact hAs.sublist (List.take_sublist _ _)
    · intro a ha b hb
      rcases List.mem_append.1 hb with hb | hb
      · have h2 := hAs
        rw [← List.take_append_drop k A, List.pairwise_append] at h2
        exact h2.2.2 a ha b hb
      · obtain ⟨p, hp, rfl⟩ := List.mem_map.1 hb
        rw [List.mem_filter] at hp
        have hlt : sc p < t := by
          apply hlow p hp.1
          intro hu
          unfold WL.unpruned at hu
          rw [List.mem_filter] at hu
          simp [hu.2] at hp
        by_contra hc
        have hat : a < t := lt_of_lt_of_le (not_le.1 hc) hlt.le
        obtain ⟨i, hi', rfl⟩ := List.getElem_of_mem ha
        rw [List.length_take] at hi'
        rw [List.getElem_take] at hat
        have := length_filter_ge_le hAs (by omega) hat
        rw [hcnt] at this
        omega

/-- The first `k` of the words scored by `__lookup_similarity` have the best scores. -/
theorem topScores_scored (hi : WLInv cf st) {agg : List ℚ → S} (hagg : MonotoneAgg agg)
    (q : List Char) {k : ℕ} (hk : 1 ≤ k) (normalize : Bool) {scored : List (ℕ × S)}
    (h : st.lookupSimilarity agg q k normalize = .ok scored) :
    (∀ r ∈ scored, ∃ w, st.wordList[r.1]? = some w ∧ Eligible st.nList st.filterN q w ∧
      r.2 = agg (scoreVec st.nList normalize q w)) ∧
    (scored.map Prod.fst).Nodup ∧
    TopScores ((eligibleWords st.nList st.filterN q st.wordList).map
        (fun w => agg (scoreVec st.nList normalize q w))) k
      (((sortDesc Prod.snd scored).map Prod.snd).take k) := by
  obtain ⟨h1, h2⟩ := lookupSimilarity_spec hi hagg q hk normalize
  have hnf : ¬ LookupFails agg st.nList st.filterN normalize st.wordList k q := by
    intro hf; rw [h1 hf] at h; cases h
  obtain ⟨scored', hs, hperm, t, hlow, hmany⟩ := h2 hnf
  rw [h] at hs
  injection hs with hs
  subst hs
  exact topScores_of_perm hperm hlow hmany

/-- Result of the V5 lookup. -/
theorem lookupV5_spec [Ring S] [IsStrictOrderedRing S] (hi : WLInv cf st) {agg : List ℚ → S}
    (hagg : MonotoneAgg agg) {w q : List Char} {k : ℤ} (hw : w ≠ []) (hk : 0 < k)
    (hf : st.fold cf w = q) (hq : Clean q) (invert normalize : Bool) :
    (LookupFails agg st.nList st.filterN normalize st.wordList k.toNat q →
      st.lookupV5 agg cf (.str w) (.int k) invert normalize = .error .zeroDivisionError) ∧
    (¬ LookupFails agg st.nList st.filterN normalize st.wordList k.toNat q →
      ∃ res, st.lookupV5 agg cf (.str w) (.int k) invert normalize = .ok res ∧
        (res.map Prod.fst).Nodup ∧ res.length ≤ 2 * k.toNat ∧
        res.Pairwise (fun a b => b.2 ≤ a.2) ∧
        (∀ r ∈ res, r.1 ∈ st.wordList ∧ Eligible st.nList st.filterN q r.1 ∧
          r.2 = if invert then agg (scoreVec st.nList normalize q r.1)
            else (if normalize then 1 else 0) - agg (scoreVec st.nList normalize q r.1)) ∧
        TopScores ((eligibleWords st.nList st.filterN q st.wordList).map
            (fun w => agg (scoreVec st.nList normalize q w))) k.toNat
          (((if invert then res else res.reverse).map
            (fun r => agg (scoreVec st.nList normalize q r.1))).take k.toNat)) := by
  have hk' : 1 ≤ k.toNat := by omega
  obtain ⟨h1, h2⟩ := lookupSimilarity_spec hi hagg q hk' normalize
  unfold WL.lookupV5
  rw [checkLookup_ok hw hk hf hq]
  simp only [bind, Except.bind]
  constructor
  · intro h
    rw [h1 h]
  · intro h
    obtain ⟨scored, hsc, -⟩ := h2 h
    obtain ⟨hmem, hnd, htop⟩ := topScores_scored hi hagg q hk' normalize hsc
    rw [hsc]
    simp only
    generalize hK : k.toNat = K at *
    let wordAt : ℕ → List Char := fun i => st.wordList.getD i []
    let val : S → S := fun s => if invert then s else (if normalize then 1 else 0) - s
    have hmem' : ∀ r ∈ scored, st.wordList[r.1]? = some (wordAt r.1) ∧
        Eligible st.nList st.filterN q (wordAt r.1) ∧
        r.2 = agg (scoreVec st.nList normalize q (wordAt r.1)) := by
      intro r hr
      obtain ⟨v, h3, h4, h5⟩ := hmem r hr
      have hwa : wordAt r.1 = v := by
        simp only [wordAt, List.getD_eq_getElem?_getD, h3, Option.getD_some]
      rw [hwa]; exact ⟨h3, h4, h5⟩
    have hA : ∀ p ∈ mostCommon scored (K * 2), p ∈ scored := fun p hp =>
      mem_of_mem_take_sortDesc hp
    rw [mapM_ok (g := fun p : ℕ × S => (wordAt p.1, val p.2)) _ (by
      intro p hp
      rw [pyGet_ok' (hmem' p (hA p hp)).1]; rfl)]
    simp only [pure, Except.pure]
    refine ⟨_, rfl, ?_, ?_, sortDesc_pairwise _ _, ?_, ?_⟩
    · rw [((sortDesc_perm Prod.snd _).map Prod.fst).nodup_iff, List.map_map]
      have e : (mostCommon scored (K * 2)).map
          (Prod.fst ∘ fun p : ℕ × S => (wordAt p.1, val p.2)) =
          ((mostCommon scored (K * 2)).map Prod.fst).map wordAt := by
        rw [List.map_map]; rfl
      rw [e]
      apply List.Nodup.map_on
      · intro a ha b hb he
        obtain ⟨p, hp, rfl⟩ := List.mem_map.1 ha
        obtain ⟨p', hp', rfl⟩ := List.mem_map.1 hb
        have h3 := (hmem' p (hA p hp)).1
        have h4 := (hmem' p' (hA p' hp')).1
        rw [← he] at h4
        exact (List.getElem?_inj (List.getElem?_eq_some_iff.1 h3).1 hi.nodupW).1 (h3.trans h4.symm)
      · exact nodup_take_sortDesc (f := Prod.fst) _ hnd
    · rw [length_sortDesc, List.length_map, mostCommon, length_take_sortDesc]; omega
    · intro r hr
      obtain ⟨p, hp, rfl⟩ := List.mem_map.1 (mem_sortDesc.1 hr)
      obtain ⟨h3, h4, h5⟩ := hmem' p (hA p hp)
      exact ⟨List.mem_of_getElem? h3, h4, by simp only [val, h5]⟩
    · -- scores in result order
      have key : ((if invert then sortDesc Prod.snd
            ((mostCommon scored (K * 2)).map (fun p : ℕ × S => (wordAt p.1, val p.2)))
          else (sortDesc Prod.snd
            ((mostCommon scored (K * 2)).map (fun p : ℕ × S => (wordAt p.1, val p.2)))).reverse).map
            (fun r => agg (scoreVec st.nList normalize q r.1))) =
          (mostCommon scored (K * 2)).map Prod.snd := by
        set out := (mostCommon scored (K * 2)).map (fun p : ℕ × S => (wordAt p.1, val p.2)) with hout
        have hval : ∀ r ∈ sortDesc Prod.snd out, r.2 = val (agg (scoreVec st.nList normalize q r.1)) := by
          intro r hr
          obtain ⟨p, hp, rfl⟩ := List.mem_map.1 (mem_sortDesc.1 hr)
          simp only [(hmem' p (hA p hp)).2.2]
        have hperm : ((sortDesc Prod.snd out).map
            (fun r => agg (scoreVec st.nList normalize q r.1))).Perm
            ((mostCommon scored (K * 2)).map Prod.snd) := by
          refine ((sortDesc_perm _ _).map _).trans (List.Perm.of_eq ?_)
          rw [hout, List.map_map]
          apply List.map_congr_left
          intro p hp
          simp only [Function.comp_def, (hmem' p (hA p hp)).2.2]
        have hs2 : ((mostCommon scored (K * 2)).map Prod.snd).Pairwise (fun a b => b ≤ a) := by
          rw [List.pairwise_map]
          exact (sortDesc_pairwise Prod.snd scored).sublist (List.take_sublist _ _)
        have hs1 := sortDesc_pairwise Prod.snd out
        cases invert with
        | true =>
          simp only [if_true]
          refine List.Perm.eq_of_pairwise (le := fun a b => b ≤ a)
            (fun a b _ _ h1 h2 => le_antisymm h2 h1) ?_ hs2 hperm
          rw [List.pairwise_map]
          refine hs1.imp_of_mem ?_
          intro a b ha hb hab
          rw [hval a ha, hval b hb] at hab
          simpa [val] using hab
        | false =>
          simp only [Bool.false_eq_true, if_false]
          refine List.Perm.eq_of_pairwise (le := fun a b => b ≤ a)
            (fun a b _ _ h1 h2 => le_antisymm h2 h1) ?_ hs2
            (((List.reverse_perm _).map _).trans hperm)
          rw [List.pairwise_map, List.pairwise_reverse]
          refine hs1.imp_of_mem ?_
          intro a b ha hb hab
          rw [hval a ha, hval b hb] at hab
          exact (sub_le_sub_iff_left _).1 hab
      rw [key, mostCommon, List.map_take, List.take_take]
      rw [show min K (K * 2) = K by omega]
      exact htop

/-- The scores returned by the V6 lookup are the best ones. -/
theorem LookupResult.top {agg : List ℚ → S} {ns : List ℤ} {filterN : ℤ} {normalize : Bool}
    {words : List (List Char)} {k : ℕ} {q : List Char} {res : List (List Char × (S ×ₗ ℚ))}
    (hn : words.Nodup) (h : LookupResult agg ns filterN normalize words k q res) :
    TopScores ((eligibleWords ns filterN q words).map (fun w => agg (scoreVec ns normalize q w))) k
      (res.map (fun r => (ofLex r.2).1)) := by
  have hsub : ∀ w ∈ res.map Prod.fst, w ∈ eligibleWords ns filterN q words := by
    intro w hw
    obtain ⟨r, hr, rfl⟩ := List.mem_map.1 hw
    obtain ⟨h1, h2, _⟩ := h.scores r hr
    exact List.mem_filter.2 ⟨h1, by simpa using h2⟩
  refine ⟨((eligibleWords ns filterN q words).filter (fun w => w ∉ res.map Prod.fst)).map
    (fun w => agg (scoreVec ns normalize q w)), ?_, ?_, ?_, ?_⟩
  · have e : res.map (fun r => (ofLex r.2).1) =
        (res.map Prod.fst).map (fun w => agg (scoreVec ns normalize q w)) := by
      rw [List.map_map]
      exact List.map_congr_left (fun r hr => (h.scores r hr).2.2.1)
    rw [e, ← List.map_append]
    refine List.Perm.map _ ?_
    have hne : (eligibleWords ns filterN q words).Nodup := hn.filter _
    refine (List.perm_ext_iff_of_nodup ?_ hne).2 ?_
    · rw [List.nodup_append]
      refine ⟨h.nodup, hne.filter _, ?_⟩
      rintro a ha b hb rfl
      rw [List.mem_filter] at hb
      simp only [decide_eq_true_eq] at hb
      exact hb.2 ha
    · intro w
      rw [List.mem_append, List.mem_filter]
      constructor
      · rintro (hw | hw)
        · exact hsub w hw
        · exact hw.1
      · intro hw
        by_cases hr : w ∈ res.map Prod.fst
        · exact Or.inl hr
        · exact Or.inr ⟨hw, by simpa using hr⟩
  · rw [List.length_map, List.length_map, h.length]
  · rw [List.pairwise_map]
    refine h.sorted.imp ?_
    intro a b hab
    rcases Prod.Lex.le_iff.1 hab with h' | h'
    · exact le_of_lt h'
    · exact le_of_eq h'.1
  · intro a ha b hb
    obtain ⟨r, hr, rfl⟩ := List.mem_map.1 ha
    obtain ⟨w, hw, rfl⟩ := List.mem_map.1 hb
    obtain ⟨h1, h2⟩ := List.mem_filter.1 hw
    obtain ⟨h3, h4⟩ := List.mem_filter.1 h1
    exact h.best w h3 (by simpa using h4) (by simpa using h2) r hr

end Verif
