import Verif.Index.Accum
import Mathlib.Algebra.BigOperators.Ring.Finset

/-!
# First pass of the lookup: lower bounds of the scores
-/

namespace Verif

open GramSpec IndexSpec

variable {cf : List Char → List Char} {st : WL}

/-- Divisor used for word `i`. -/
def WL.den (st : WL) (q : List Char) (normalize : Bool) (n : ℤ) (i : ℕ) : ℚ :=
  if normalize then ((numGrams q.length n + numGrams (st.wordLens.getD i 0) n : ℤ) : ℚ) else 1

theorem den_eq (hi : WLInv cf st) {i : ℕ} {w : List Char} (hw : st.wordList[i]? = some w)
    (q : List Char) (normalize : Bool) (n : ℤ) :
    st.den q normalize n i = if normalize then (denom n q w : ℚ) else 1 := by
  unfold WL.den
  have : st.wordLens.getD i 0 = w.length := by
    rw [hi.lens, List.getD_eq_getElem?_getD, List.getElem?_map, hw]; rfl
  rw [this, denom_eq]

/-- Is word `i` skipped by the filter? -/
def WL.skipped (st : WL) (q : List Char) (i : ℕ) : Prop :=
  st.filterN ≠ 0 ∧ i ∉ st.filterCandidates q

instance (st : WL) (q : List Char) (i : ℕ) : Decidable (st.skipped q i) := by
  unfold WL.skipped; infer_instance

theorem mem_filterCandidates (hi : WLInv cf st) (q : List Char) (i : ℕ) :
    i ∈ st.filterCandidates q ↔
      st.filterN ≠ 0 ∧ ∃ w, st.wordList[i]? = some w ∧ Shares st.filterN q w := by
  unfold WL.filterCandidates
  by_cases h : st.filterN ≠ 0
  · rw [if_pos h, List.mem_flatMap]
    constructor
    · rintro ⟨g, hg, hm⟩
      rw [hi.filt] at hm
      obtain ⟨_, w, hw, hgw⟩ := hm
      rw [List.mem_dedup, getNGrams_eq_gramsOf] at hg
      rw [getNGrams_eq_gramsOf] at hgw
      exact ⟨h, w, hw, g, hg, hgw⟩
    · rintro ⟨_, w, hw, g, hg, hgw⟩
      refine ⟨g, ?_, (hi.filt g i).2 ⟨h, w, hw, ?_⟩⟩
      · rw [List.mem_dedup, getNGrams_eq_gramsOf]; exact hg
      · rw [getNGrams_eq_gramsOf]; exact hgw
  · simp [h]

theorem skipped_iff (hi : WLInv cf st) {q : List Char} {i : ℕ} {w : List Char}
    (hw : st.wordList[i]? = some w) :
    st.skipped q i ↔ ¬ (st.filterN ≠ 0 → Shares st.filterN q w) := by
  unfold WL.skipped
  rw [mem_filterCandidates hi]
  constructor
  · rintro ⟨h, h2⟩ h3
    exact h2 ⟨h, w, hw, h3 h⟩
  · intro h
    rw [Classical.not_imp] at h
    refine ⟨h.1, ?_⟩
    rintro ⟨_, w', hw', hs⟩
    rw [hw] at hw'
    injection hw' with e
    exact h.2 (e ▸ hs)

/-- Events of the first pass. -/
def WL.minEvents (st : WL) (q : List Char) (normalize : Bool) : List Event :=
  st.nList.zipIdx.flatMap (fun nk =>
    (counter (getNGrams q nk.1)).flatMap (fun gc =>
      ((Dict.get? st.ngramCounts gc.1).getD []).flatMap (fun e =>
        if st.skipped q e.1 then []
        else [(e.1, nk.2, ((min gc.2 e.2 : ℕ) : ℚ) / st.den q normalize nk.1 e.1)])))

theorem count_inst (g : List Char) (l : List (List Char)) :
    @List.count (List Char) instBEqOfDecidableEq g l = l.count g := by
  congr 1
  exact lawful_beq_subsingleton _ _

theorem gram_len {q : List Char} {n : ℤ} {g : List Char} {c : ℕ} (hn : 0 < n)
    (h : (g, c) ∈ counter (getNGrams q n)) : (g.length : ℤ) = n ∧ g ∈ getNGrams q n ∧
      c = (getNGrams q n).count g := by
  have h1 := Dict.get?_of_mem (nodup_keys_counter _) h
  rw [get?_counter] at h1
  split at h1
  · rename_i hg
    injection h1 with h1
    refine ⟨getNGrams_length hn hg, hg, ?_⟩
    rw [← h1]; exact count_inst g _
  · cases h1

theorem posEntry_some {ns : List ℤ} {g w : List Char} {i : ℕ} {e : ℕ × List ℚ}
    (h : posEntry ns g w i = some e) :
    (g.length : ℤ) ∈ ns ∧ g ∈ getNGrams w g.length ∧
      e = (i, Dict.locs (locatedOf (getNGrams w g.length)) g) := by
  unfold posEntry at h
  split at h
  · rename_i hc
    injection h with h
    exact ⟨hc.1, hc.2, h.symm⟩
  · cases h

theorem mem_counts (hi : WLInv cf st) {g : List Char} {e : ℕ × ℕ}
    (h : e ∈ (Dict.get? st.ngramCounts g).getD []) :
    ∃ w, st.wordList[e.1]? = some w ∧ (g.length : ℤ) ∈ st.nList ∧ g ∈ getNGrams w g.length ∧
      e.2 = (getNGrams w g.length).count g := by
  rw [(hi.counts g).mem_iff] at h
  obtain ⟨e', he', rfl⟩ := List.mem_map.1 h
  obtain ⟨w, hw, hp⟩ := mem_posEntries.1 he'
  obtain ⟨h1, h2, h3⟩ := posEntry_some hp
  refine ⟨w, hw, h1, h2, ?_⟩
  rw [h3]
  simp only [length_locs_locatedOf]

theorem minScores_eq (hi : WLInv cf st) (q : List Char) (normalize : Bool) :
    st.minScores q normalize = .ok (accum st.nList.length [] (st.minEvents q normalize)) := by
  unfold WL.minScores WL.minEvents accum
  apply foldlM_flatMap_ok
  rintro ⟨n, k⟩ hnk ms
  have hk : st.nList[k]? = some n := List.mem_zipIdx_iff_getElem?.1 hnk
  have hn : 0 < n := hi.posN n (List.mem_of_getElem? hk)
  apply foldlM_flatMap_ok
  rintro ⟨g, c⟩ hgc ms
  obtain ⟨hg1, hg2, hg3⟩ := gram_len hn hgc
  apply foldlM_flatMap_ok
  rintro e he ms
  obtain ⟨w, hw, _, hgw, he2⟩ := mem_counts hi he
  simp only at hgw
  unfold WL.minStep
  by_cases hs : st.skipped q e.1
  · simp only [if_pos hs]
    rw [if_pos (show st.filterN ≠ 0 ∧ e.1 ∉ st.filterCandidates q from hs)]; rfl
  · simp only [if_neg hs]
    rw [if_neg (show ¬ (st.filterN ≠ 0 ∧ e.1 ∉ st.filterCandidates q) from hs)]
    cases normalize with
    | false => simp [WL.den]
    | true =>
      have h1 : st.wordNumGrams[e.1]? = some (st.nList.map (numGrams w.length)) := by
        rw [hi.nums, List.getElem?_map, hw]; rfl
      have h2 : (st.nList.map (numGrams w.length))[k]? = some (numGrams w.length n) := by
        rw [List.getElem?_map, hk]; rfl
      have hsh : Shares n q w := by
        refine ⟨g, ?_, ?_⟩
        · rw [← getNGrams_eq_gramsOf]; exact hg2
        · rw [← getNGrams_eq_gramsOf, ← hg1]; exact hgw
      have hd := denom_pos_of_shares hsh
      rw [denom_eq] at hd
      have hden := den_eq hi hw q true n
      rw [denom_eq] at hden
      simp only [if_true] at hden
      simp only [if_true, pyGet_ok' h1, pyGet_ok' h2, bind, Except.bind, hd.ne', if_false,
        List.foldl_cons, List.foldl_nil, hden]

/-- Which words get a lower bound. -/
theorem mem_minEvents (hi : WLInv cf st) (q : List Char) (normalize : Bool) (oi : ℕ) :
    oi ∈ (st.minEvents q normalize).map Prod.fst ↔
      ∃ w, st.wordList[oi]? = some w ∧ Eligible st.nList st.filterN q w := by
  constructor
  · intro h
    obtain ⟨ev, hev, rfl⟩ := List.mem_map.1 h
    unfold WL.minEvents at hev
    obtain ⟨⟨n, k⟩, hnk, hev⟩ := List.mem_flatMap.1 hev
    obtain ⟨⟨g, c⟩, hgc, hev⟩ := List.mem_flatMap.1 hev
    obtain ⟨e, he, hev⟩ := List.mem_flatMap.1 hev
    have hk : st.nList[k]? = some n := List.mem_zipIdx_iff_getElem?.1 hnk
    have hn : 0 < n := hi.posN n (List.mem_of_getElem? hk)
    obtain ⟨hg1, hg2, hg3⟩ := gram_len hn hgc
    obtain ⟨w, hw, _, hgw, he2⟩ := mem_counts hi he
    simp only at hgw
    split at hev
    · cases hev
    · rename_i hs
      rw [List.mem_singleton] at hev
      subst hev
      refine ⟨w, hw, ?_, n, List.mem_of_getElem? hk, g, ?_, ?_⟩
      · rw [skipped_iff hi hw, not_not] at hs; exact hs
      · rw [← getNGrams_eq_gramsOf]; exact hg2
      · rw [← getNGrams_eq_gramsOf, ← hg1]; exact hgw
  · rintro ⟨w, hw, hf, n, hn, g, hgq, hgw⟩
    have hn0 : 0 < n := hi.posN n hn
    obtain ⟨k, hk, rfl⟩ := List.getElem_of_mem hn
    rw [← getNGrams_eq_gramsOf] at hgq hgw
    have hlen := getNGrams_length hn0 hgq
    have hpe : posEntry st.nList g w oi =
        some (oi, Dict.locs (locatedOf (getNGrams w g.length)) g) := by
      unfold posEntry
      rw [if_pos]
      rw [hlen]; exact ⟨hn, hgw⟩
    have hmem : (oi, (Dict.locs (locatedOf (getNGrams w g.length)) g).length) ∈
        (Dict.get? st.ngramCounts g).getD [] := by
      rw [(hi.counts g).mem_iff]
      exact List.mem_map.2 ⟨(oi, _), mem_posEntries.2 ⟨w, hw, hpe⟩, rfl⟩
    have hns : ¬ st.skipped q oi := by rw [skipped_iff hi hw, not_not]; exact hf
    have hc : (g, (getNGrams q st.nList[k]).count g) ∈ counter (getNGrams q st.nList[k]) := by
      apply Dict.mem_of_get?
      rw [get?_counter, if_pos hgq, count_inst]
    have hz : (st.nList[k], k) ∈ st.nList.zipIdx :=
      List.mem_zipIdx_iff_getElem?.2 (by simp [hk])
    rw [WL.minEvents, List.map_flatMap]
    refine List.mem_flatMap.2 ⟨_, hz, ?_⟩
    rw [List.map_flatMap]
    refine List.mem_flatMap.2 ⟨_, hc, ?_⟩
    rw [List.map_flatMap]
    refine List.mem_flatMap.2 ⟨_, hmem, ?_⟩
    simp [hns]

theorem sum_keys_eq {κ : Type} [DecidableEq κ] {l : List κ} {A : Finset κ} (hn : l.Nodup)
    (hA : ∀ k, k ∈ l ↔ k ∈ A) (f : κ → ℚ) : (l.map f).sum = ∑ k ∈ A, f k := by
  have : A = l.toFinset := by ext k; rw [List.mem_toFinset, hA]
  rw [this, List.sum_toFinset _ hn]

/-- The accumulated lower bounds of an eligible word. -/
theorem evTotal_minEvents (hi : WLInv cf st) (q : List Char) (normalize : Bool) {oi : ℕ}
    {w : List Char} (hw : st.wordList[oi]? = some w)
    (hf : st.filterN ≠ 0 → Shares st.filterN q w) :
    evTotal st.nList.length (st.minEvents q normalize) oi = lowerVec st.nList normalize q w := by
  have hns : ¬ st.skipped q oi := by rw [skipped_iff hi hw, not_not]; exact hf
  apply List.ext_getElem
  · simp [evTotal, lowerVec]
  intro k h1 h2
  have hk : k < st.nList.length := by simpa [evTotal] using h1
  simp only [evTotal, List.getElem_map, List.getElem_range, lowerVec, WL.minEvents]
  rw [sum_map_flatMap]
  have key : ∀ nk ∈ st.nList.zipIdx,
      (((counter (getNGrams q nk.1)).flatMap (fun gc =>
        ((Dict.get? st.ngramCounts gc.1).getD []).flatMap (fun e =>
          if st.skipped q e.1 then []
          else [((e.1, nk.2, ((min gc.2 e.2 : ℕ) : ℚ) / st.den q normalize nk.1 e.1) : Event)]))).map
        (fun e => if e.1 = oi ∧ e.2.1 = k then e.2.2 else 0)).sum =
      if nk.2 = k then (if normalize then commonN nk.1 q w / denom nk.1 q w else commonN nk.1 q w)
      else 0 := by
    rintro ⟨n, k'⟩ hnk
    have hk' : st.nList[k']? = some n := List.mem_zipIdx_iff_getElem?.1 hnk
    have hnm : n ∈ st.nList := List.mem_of_getElem? hk'
    have hn : 0 < n := hi.posN n hnm
    simp only
    rw [sum_map_flatMap]
    have inner : ∀ gc ∈ counter (getNGrams q n),
        ((((Dict.get? st.ngramCounts gc.1).getD []).flatMap (fun e =>
          if st.skipped q e.1 then []
          else [((e.1, k', ((min gc.2 e.2 : ℕ) : ℚ) / st.den q normalize n e.1) : Event)])).map
          (fun e => if e.1 = oi ∧ e.2.1 = k then e.2.2 else 0)).sum =
        if gc.1 ∈ gramsOf n w then
          (if k' = k then ((min ((gramsOf n q).count gc.1) ((gramsOf n w).count gc.1) : ℕ) : ℚ)
            / st.den q normalize n oi else 0) else 0 := by
      rintro ⟨g, c⟩ hgc
      obtain ⟨hg1, hg2, hg3⟩ := gram_len hn hgc
      simp only
      rw [sum_map_flatMap, ((hi.counts g).map _).sum_eq, List.map_map]
      rw [sum_posEntries hw]
      · unfold posEntry
        rw [hg1, getNGrams_eq_gramsOf w n, hg3, getNGrams_eq_gramsOf q n]
        by_cases hgw : g ∈ gramsOf n w
        · rw [if_pos ⟨hnm, hgw⟩, if_pos hgw]
          simp [hns, length_locs_locatedOf]
        · rw [if_neg (fun h => hgw h.2), if_neg hgw]
      · intro e he
        simp only [Function.comp_def]
        split
        · rfl
        · simp [he]
    rw [List.map_congr_left inner, counter_eq_map, List.map_map]
    simp only [Function.comp_def]
    rw [sum_keys_eq (nodup_keys_counter _) (A := (gramsOf n q).toFinset) (by
      intro g; rw [mem_keys_counter, List.mem_toFinset, getNGrams_eq_gramsOf])
      (fun g => if g ∈ gramsOf n w then
          (if k' = k then ((min ((gramsOf n q).count g) ((gramsOf n w).count g) : ℕ) : ℚ)
            / st.den q normalize n oi else 0) else 0)]
    have e1 : ∀ g, (g ∈ gramsOf n w) ↔ g ∈ (gramsOf n w).toFinset := by
      intro g; rw [List.mem_toFinset]
    simp only [e1]
    rw [Finset.sum_ite_mem]
    by_cases hkk : k' = k
    · simp only [hkk, if_true]
      rw [den_eq hi hw]
      cases normalize
      · simp [commonN]
      · simp only [if_true, commonN, div_eq_mul_inv]; rw [Finset.sum_mul]
    · simp [hkk]
  rw [List.map_congr_left key]
  exact sum_zipIdx_single st.nList
    (fun n => if normalize then commonN n q w / denom n q w else commonN n q w) k hk

/-- First pass: every eligible word, and no other, with its lower bounds. -/
theorem minScores_spec (hi : WLInv cf st) (q : List Char) (normalize : Bool) :
    ∃ ms, st.minScores q normalize = .ok ms ∧ (Dict.keys ms).Nodup ∧
      ∀ oi v, (oi, v) ∈ ms ↔ ∃ w, st.wordList[oi]? = some w ∧
        Eligible st.nList st.filterN q w ∧ v = lowerVec st.nList normalize q w := by
  refine ⟨_, minScores_eq hi q normalize, nodup_keys_accum _ _, ?_⟩
  intro oi v
  rw [Dict.mem_iff_get? (nodup_keys_accum _ _), get?_accum]
  constructor
  · intro h
    split at h
    · rename_i hm
      obtain ⟨w, hw, he⟩ := (mem_minEvents hi q normalize oi).1 hm
      injection h with h
      exact ⟨w, hw, he, by rw [← h, evTotal_minEvents hi q normalize hw he.1]⟩
    · cases h
  · rintro ⟨w, hw, he, rfl⟩
    rw [if_pos ((mem_minEvents hi q normalize oi).2 ⟨w, hw, he⟩),
      evTotal_minEvents hi q normalize hw he.1]

end Verif
