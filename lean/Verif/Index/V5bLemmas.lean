import Verif.Index.V5bModel
import Verif.Index.History

/-!
# Lemmas about `ApproxWordListV5b`
-/

namespace Verif

open GramSpec IndexSpec

variable {cf : List Char → List Char} {st : WL} {S : Type} [LinearOrder S]

theorem v5bLocations_eq (gs : List (List Char)) :
    v5bLocations gs = Dict.group (locatedOf gs) := by
  unfold v5bLocations Dict.group locatedOf
  rw [List.foldl_map]
  rfl

theorem v5bAddGrams_eq (st : WL) (w : List Char) (idx : ℕ) :
    st.v5bAddGrams w idx = st.addGrams w idx := by
  unfold WL.v5bAddGrams WL.addGrams
  apply List.foldl_ext
  intro st n _
  rw [v5bLocations_eq, addLocations_eq]
  split
  · rename_i h
    rw [List.length_eq_zero_iff.1 h]; rfl
  · rfl

/-- Complete description of `add_word`. -/
theorem v5bAddWord_cases (hi : WLInv cf st) (v : PyVal) :
    st.v5bAddWord cf v =
      match v with
      | .str w =>
        if w = [] ∨ st.fold cf w = [] ∨ ¬ ('\x02' ∉ st.fold cf w ∧ '\x03' ∉ st.fold cf w) then
          (st, .error .valueError)
        else if st.fold cf w ∈ st.wordList then (st, .ok ())
        else (st.inserted (st.fold cf w), .ok ())
      | _ => (st, .error .valueError) := by
  cases v with
  | int i => rfl
  | other => rfl
  | str w =>
    simp only [WL.v5bAddWord, List.length_eq_zero_iff]
    by_cases h0 : w = []
    · rw [if_pos h0, if_pos (Or.inl h0)]
    rw [if_neg h0]
    by_cases h1 : st.fold cf w = []
    · rw [if_pos h1, if_pos (Or.inr (Or.inl h1))]
    rw [if_neg h1]
    by_cases h2 : '\x02' ∈ st.fold cf w ∨ '\x03' ∈ st.fold cf w
    · rw [if_pos h2, if_pos]
      right; right
      rintro ⟨ha, hb⟩
      rcases h2 with h2 | h2
      · exact ha h2
      · exact hb h2
    have h2' : ¬ (w = [] ∨ st.fold cf w = [] ∨
        ¬ ('\x02' ∉ st.fold cf w ∧ '\x03' ∉ st.fold cf w)) := by
      rw [not_or] at h2
      simp [h0, h1, h2]
    rw [if_neg h2, if_neg h2']
    have hhas : Dict.has st.wordIndices (st.fold cf w) = decide (st.fold cf w ∈ st.wordList) := by
      rw [Bool.eq_iff_iff, Dict.has_iff, hi.keys.mem_iff, decide_eq_true_iff]
    rw [hhas]
    by_cases h3 : st.fold cf w ∈ st.wordList
    · simp [h3]
    rw [if_neg (by simpa using h3), if_neg h3]
    have hk : st.fold cf w ∉ Dict.keys st.wordIndices := by
      rw [hi.keys.mem_iff]; exact h3
    unfold WL.v5bResolve
    rw [if_neg (by simpa using h1), Dict.get?_eq_none.2 hk]
    simp only [set_eq_append hk, v5bAddGrams_eq]
    rfl

/-- The two classes keep the same index. -/
theorem v5bAddWord_state (hcf : ∀ w, cf (cf w) = cf w) (hi : WLInv cf st) (v : PyVal) :
    (st.v5bAddWord cf v).1 = (st.addWord cf v).1 := by
  rw [v5bAddWord_cases hi, addWord_cases hcf hi]
  cases v with
  | int i => rfl
  | other => rfl
  | str w =>
    simp only
    by_cases h0 : w = []
    · simp [h0]
    by_cases h1 : st.fold cf w = []
    · simp only [h1, h0]
      simp
      split <;> rfl
    by_cases h2 : '\x02' ∉ st.fold cf w ∧ '\x03' ∉ st.fold cf w
    · simp [h0, h1, h2]
    · by_cases h3 : st.fold cf w ∈ st.wordList
      · simp [h0, h1, h2, h3]
      · simp [h0, h1, h2, h3]

theorem getNGrams_of_numGrams {q : List Char} {n : ℤ} (h : numGrams q.length n = 0) :
    getNGrams q n = [] := by
  unfold numGrams at h
  unfold getNGrams
  split at h
  · rename_i hn
    rw [if_pos hn]
    have : ((pad q).length : ℤ) - n + 1 = 0 := by
      have : (pad q).length = q.length + 2 := by simp [pad]
      omega
    rw [this]; rfl
  · omega

theorem v5bCandidates_cases (hi : WLInv cf st) (q : List Char) :
    (st.v5bCandidates q = none ∧ st.eligible q = []) ∨
    ∃ c, st.v5bCandidates q = some c ∧ ∀ i w, st.wordList[i]? = some w →
      (i ∉ c ↔ st.skipped q i) := by
  unfold WL.v5bCandidates
  by_cases hf : st.filterN ≠ 0
  · rw [if_pos hf]
    have hc : st.filterCandidates q =
        ((getNGrams q st.filterN).dedup).flatMap (fun g => (Dict.get? st.ngramFilter g).getD []) := by
      unfold WL.filterCandidates; rw [if_pos hf]
    have hemp : st.filterCandidates q = [] → st.eligible q = [] := by
      intro h
      rw [List.eq_nil_iff_forall_not_mem]
      rintro ⟨w, i⟩ hm
      obtain ⟨hw, he⟩ := mem_eligible.1 hm
      have : i ∈ st.filterCandidates q := (mem_filterCandidates hi q i).2 ⟨hf, w, hw, he.1 hf⟩
      rw [h] at this; cases this
    simp only
    by_cases h1 : ((getNGrams q st.filterN).dedup).isEmpty
    · left
      rw [if_pos h1]
      refine ⟨rfl, hemp ?_⟩
      rw [hc, List.isEmpty_iff.1 h1]; rfl
    · rw [if_neg h1, ← hc]
      by_cases h2 : (st.filterCandidates q).isEmpty
      · left
        rw [if_pos h2]
        exact ⟨rfl, hemp (List.isEmpty_iff.1 h2)⟩
      · right
        rw [if_neg h2]
        refine ⟨_, rfl, ?_⟩
        intro i w _
        unfold WL.skipped
        exact ⟨fun h => ⟨hf, h⟩, fun h => h.2⟩
  · rw [if_neg hf]
    by_cases h1 : st.wordList.isEmpty
    · left
      rw [if_pos h1]
      refine ⟨rfl, ?_⟩
      unfold WL.eligible
      rw [List.isEmpty_iff.1 h1]; rfl
    · right
      rw [if_neg h1]
      refine ⟨_, rfl, ?_⟩
      intro i w hw
      have hlt := (List.getElem?_eq_some_iff.1 hw).1
      unfold WL.skipped
      simp [hf, hlt]

theorem v5bMinScores_eq (hi : WLInv cf st) (q : List Char) (normalize : Bool) {c : List ℕ}
    (hc : ∀ i w, st.wordList[i]? = some w → (i ∉ c ↔ st.skipped q i)) :
    st.v5bMinScores q normalize c = .ok (accum st.nList.length [] (st.minEvents q normalize)) := by
  unfold WL.v5bMinScores WL.minEvents accum
  apply foldlM_flatMap_ok
  rintro ⟨n, k⟩ hnk ms
  have hk : st.nList[k]? = some n := List.mem_zipIdx_iff_getElem?.1 hnk
  have hn : 0 < n := hi.posN n (List.mem_of_getElem? hk)
  simp only
  by_cases hz : numGrams q.length n = 0
  · rw [if_pos hz, getNGrams_of_numGrams hz]; rfl
  rw [if_neg hz]
  apply foldlM_flatMap_ok
  rintro ⟨g, cnt⟩ hgc ms
  obtain ⟨hg1, hg2, hg3⟩ := gram_len hn hgc
  apply foldlM_flatMap_ok
  rintro e he ms
  obtain ⟨w, hw, _, hgw, he2⟩ := mem_counts hi he
  simp only at hgw
  unfold WL.v5bMinStep
  by_cases hs : st.skipped q e.1
  · simp only [if_pos hs]
    rw [if_pos ((hc _ _ hw).2 hs)]; rfl
  · simp only [if_neg hs]
    rw [if_neg (fun h => hs ((hc _ _ hw).1 h))]
    have h1 : st.wordNumGrams[e.1]? = some (st.nList.map (numGrams w.length)) := by
      rw [hi.nums, List.getElem?_map, hw]; rfl
    have h2 : (st.nList.map (numGrams w.length))[k]? = some (numGrams w.length n) := by
      rw [List.getElem?_map, hk]; rfl
    have hsh : Shares n q w := by
      refine ⟨g, ?_, ?_⟩
      · rw [← getNGrams_eq_gramsOf]; exact hg2
      · rw [← getNGrams_eq_gramsOf, ← hg1]; exact hgw
    have hd := denom_pos_of_shares hsh
    rw [denom_eq] at hd
    have hden := den_eq hi hw q normalize n
    rw [denom_eq] at hden
    simp only [pyGet_ok' h1, pyGet_ok' h2, bind, Except.bind, gt_iff_lt, hd, if_true, pure,
      Except.pure, List.foldl_cons, List.foldl_nil, hden]
    cases normalize <;> simp

/-- Events of the second pass. -/
def WL.v5bEvents (st : WL) (q : List Char) (normalize : Bool) (possible : List ℕ) : List Event :=
  st.nList.zipIdx.flatMap (fun nk =>
    (Dict.group (locatedOf (getNGrams q nk.1))).flatMap (fun gl =>
      ((Dict.get? st.ngramPositions gl.1).getD []).flatMap (fun e =>
        if e.1 ∉ possible then []
        else [(e.1, nk.2, ((gl.2.length : ℚ) + e.2.length - emd gl.2 e.2)
          / st.den q normalize nk.1 e.1)])))

theorem v5bMatchScores_eq (hi : WLInv cf st) (q : List Char) (normalize : Bool)
    (possible : List ℕ) :
    st.v5bMatchScores q normalize possible =
      .ok (accum st.nList.length [] (st.v5bEvents q normalize possible)) := by
  unfold WL.v5bMatchScores WL.v5bEvents accum
  apply foldlM_flatMap_ok
  rintro ⟨n, k⟩ hnk ms
  have hk : st.nList[k]? = some n := List.mem_zipIdx_iff_getElem?.1 hnk
  have hn : 0 < n := hi.posN n (List.mem_of_getElem? hk)
  simp only
  by_cases hz : numGrams q.length n = 0
  · rw [if_pos hz, getNGrams_of_numGrams hz]; rfl
  rw [if_neg hz, v5bLocations_eq]
  apply foldlM_flatMap_ok
  rintro ⟨g, l⟩ hgl ms
  obtain ⟨hg2, -⟩ := mem_group_locatedOf.1 hgl
  have hg1 := getNGrams_length hn hg2
  apply foldlM_flatMap_ok
  rintro e he ms
  unfold WL.v5bMatchStep
  by_cases hp : e.1 ∉ possible
  · simp only [if_pos hp]; rfl
  simp only [if_neg hp]
  rw [(hi.positions g).mem_iff] at he
  obtain ⟨w, hw, hpe⟩ := mem_posEntries.1 he
  obtain ⟨_, hgw, _⟩ := posEntry_some hpe
  have h1 : st.wordNumGrams[e.1]? = some (st.nList.map (numGrams w.length)) := by
    rw [hi.nums, List.getElem?_map, hw]; rfl
  have h2 : (st.nList.map (numGrams w.length))[k]? = some (numGrams w.length n) := by
    rw [List.getElem?_map, hk]; rfl
  have hsh : Shares n q w := by
    refine ⟨g, ?_, ?_⟩
    · rw [← getNGrams_eq_gramsOf]; exact hg2
    · rw [← getNGrams_eq_gramsOf, ← hg1]; exact hgw
  have hd := denom_pos_of_shares hsh
  rw [denom_eq] at hd
  have hden := den_eq hi hw q normalize n
  rw [denom_eq] at hden
  cases normalize with
  | false => simp [hden, pure, Except.pure]
  | true =>
    simp only [if_true] at hden
    simp only [pyGet_ok' h1, pyGet_ok' h2, bind, Except.bind, gt_iff_lt, hd, if_true, pure,
      Except.pure, List.foldl_cons, List.foldl_nil, hden]
    simp

/-- Which words get a score. -/
theorem mem_v5bEvents (hi : WLInv cf st) (q : List Char) (normalize : Bool) (possible : List ℕ) (oi : ℕ) :
    oi ∈ (st.v5bEvents q normalize possible).map Prod.fst ↔
      oi ∈ possible ∧ ∃ w, st.wordList[oi]? = some w ∧ ∃ n ∈ st.nList, Shares n q w := by
  constructor
  · intro h
    rw [WL.v5bEvents, List.map_flatMap] at h
    obtain ⟨⟨n, k⟩, hnk, h⟩ := List.mem_flatMap.1 h
    rw [List.map_flatMap] at h
    obtain ⟨⟨g, l⟩, hgl, h⟩ := List.mem_flatMap.1 h
    rw [List.map_flatMap] at h
    obtain ⟨e, he, h⟩ := List.mem_flatMap.1 h
    have hk : st.nList[k]? = some n := List.mem_zipIdx_iff_getElem?.1 hnk
    have hn : 0 < n := hi.posN n (List.mem_of_getElem? hk)
    obtain ⟨hg, rfl⟩ := mem_group_locatedOf.1 hgl
    have hg1 := getNGrams_length hn hg
    rw [(hi.positions g).mem_iff] at he
    obtain ⟨w, hw, hp⟩ := mem_posEntries.1 he
    obtain ⟨_, hgw, _⟩ := posEntry_some hp
    by_cases hp : e.1 ∉ possible
    · simp [hp] at h
    · simp only [if_neg hp] at h
      have : oi = e.1 := by simpa using h
      subst this
      refine ⟨not_not.1 hp, w, hw, n, List.mem_of_getElem? hk, g, ?_, ?_⟩
      · rw [← getNGrams_eq_gramsOf]; exact hg
      · rw [← getNGrams_eq_gramsOf, ← hg1]; exact hgw
  · rintro ⟨hpos, w, hw, n, hn, g, hgq, hgw⟩
    have hn0 : 0 < n := hi.posN n hn
    obtain ⟨k, hk, rfl⟩ := List.getElem_of_mem hn
    rw [← getNGrams_eq_gramsOf] at hgq hgw
    have hlen := getNGrams_length hn0 hgq
    have hpe : posEntry st.nList g w oi =
        some (oi, Dict.locs (locatedOf (getNGrams w g.length)) g) := by
      unfold posEntry
      rw [if_pos]
      rw [hlen]; exact ⟨hn, hgw⟩
    have hmem : (oi, Dict.locs (locatedOf (getNGrams w g.length)) g) ∈
        (Dict.get? st.ngramPositions g).getD [] := by
      rw [(hi.positions g).mem_iff]
      exact mem_posEntries.2 ⟨w, hw, hpe⟩
    have hz : (st.nList[k], k) ∈ st.nList.zipIdx :=
      List.mem_zipIdx_iff_getElem?.2 (by simp [hk])
    rw [WL.v5bEvents, List.map_flatMap]
    refine List.mem_flatMap.2 ⟨_, hz, ?_⟩
    rw [List.map_flatMap]
    refine List.mem_flatMap.2 ⟨_, mem_group_locatedOf.2 ⟨hgq, rfl⟩, ?_⟩
    rw [List.map_flatMap]
    refine List.mem_flatMap.2 ⟨_, hmem, ?_⟩
    simp [hpos]

/-- The accumulated scores of a possible word. -/
theorem evTotal_v5bEvents (hi : WLInv cf st) (q : List Char) (normalize : Bool)
    {possible : List ℕ} {oi : ℕ}
    {w : List Char} (hw : st.wordList[oi]? = some w) (hpos : oi ∈ possible) :
    evTotal st.nList.length (st.v5bEvents q normalize possible) oi =
      scoreVec st.nList normalize q w := by
  have hsN : ∀ n, scoreN normalize n q w = simN n q w / st.den q normalize n oi := by
    intro n
    rw [den_eq hi hw]
    cases normalize <;> simp [scoreN]
  apply List.ext_getElem
  · simp [evTotal, scoreVec]
  intro k h1 h2
  have hk : k < st.nList.length := by simpa [evTotal] using h1
  simp only [evTotal, List.getElem_map, List.getElem_range, WL.v5bEvents, scoreVec, hsN]
  rw [sum_map_flatMap]
  have key : ∀ nk ∈ st.nList.zipIdx,
      (((Dict.group (locatedOf (getNGrams q nk.1))).flatMap (fun gl =>
        ((Dict.get? st.ngramPositions gl.1).getD []).flatMap (fun e =>
          if e.1 ∉ possible then []
          else [((e.1, nk.2, ((gl.2.length : ℚ) + e.2.length - emd gl.2 e.2)
            / st.den q normalize nk.1 e.1) : Event)]))).map
        (fun e => if e.1 = oi ∧ e.2.1 = k then e.2.2 else 0)).sum =
      if nk.2 = k then simN nk.1 q w / st.den q normalize nk.1 oi else 0 := by
    rintro ⟨n, k'⟩ hnk
    have hk' : st.nList[k']? = some n := List.mem_zipIdx_iff_getElem?.1 hnk
    have hnm : n ∈ st.nList := List.mem_of_getElem? hk'
    have hn : 0 < n := hi.posN n hnm
    simp only
    rw [sum_map_flatMap]
    have inner : ∀ gl ∈ Dict.group (locatedOf (getNGrams q n)),
        ((((Dict.get? st.ngramPositions gl.1).getD []).flatMap (fun e =>
          if e.1 ∉ possible then []
          else [((e.1, k', ((gl.2.length : ℚ) + e.2.length - emd gl.2 e.2)
            / st.den q normalize n e.1) : Event)])).map
          (fun e => if e.1 = oi ∧ e.2.1 = k then e.2.2 else 0)).sum =
        if gl.1 ∈ (gramsOf n w).toFinset then
          (if k' = k then (((gramsOf n q).count gl.1 : ℚ) + (gramsOf n w).count gl.1
      - emd (posOf (gramsOf n q) gl.1) (posOf (gramsOf n w) gl.1))
        / st.den q normalize n oi else 0) else 0 := by
      rintro ⟨g, l⟩ hgl
      obtain ⟨hg, rfl⟩ := mem_group_locatedOf.1 hgl
      have hg1 := getNGrams_length hn hg
      simp only
      rw [sum_map_flatMap, ((hi.positions g).map _).sum_eq]
      rw [sum_posEntries hw]
      · unfold posEntry
        rw [hg1, getNGrams_eq_gramsOf w n, getNGrams_eq_gramsOf q n, posOf_eq, posOf_eq]
        by_cases hgw : g ∈ gramsOf n w
        · rw [if_pos ⟨hnm, hgw⟩, if_pos (List.mem_toFinset.2 hgw)]
          by_cases hkk : k' = k
          · simp [hpos, hkk, length_locs_locatedOf]
          · simp [hpos, hkk]
        · rw [if_neg (fun h => hgw h.2), if_neg (fun h => hgw (List.mem_toFinset.1 h))]
      · intro e he
        split
        · rfl
        · simp [he]
    rw [List.map_congr_left inner, Dict.group_eq_map, List.map_map]
    simp only [Function.comp_def]
    rw [sum_keys_eq (Dict.nodup_keys_group _) (A := (gramsOf n q).toFinset) (by
      intro g; rw [keys_group_eq, List.mem_toFinset, getNGrams_eq_gramsOf])
      (fun g => if g ∈ (gramsOf n w).toFinset then
          (if k' = k then (((gramsOf n q).count g : ℚ) + (gramsOf n w).count g
      - emd (posOf (gramsOf n q) g) (posOf (gramsOf n w) g))
        / st.den q normalize n oi else 0) else 0)]
    rw [Finset.sum_ite_mem]
    by_cases hkk : k' = k
    · simp only [hkk, if_true, simN]
      simp only [div_eq_mul_inv]
      rw [Finset.sum_mul]
    · simp [hkk]
  rw [List.map_congr_left key]
  exact sum_zipIdx_single st.nList (fun n => simN n q w / st.den q normalize n oi) k hk

/-- The survivors of the pruning step. -/
theorem prune_spec (hi : WLInv cf st) {agg : List ℚ → S} (hagg : MonotoneAgg agg)
    (q : List Char) {k : ℕ} (hk : 1 ≤ k) (normalize : Bool) {ms : Dict ℕ (List ℚ)}
    (hms : st.minScores q normalize = .ok ms) (hne : ms ≠ []) :
    ∃ t, minAcceptable (ms.map (fun p => agg p.2)) k = .ok t ∧
      (∀ oi, oi ∈ survivors agg ms t ↔ ∃ w, (w, oi) ∈ st.unpruned agg q k normalize) ∧
      (∀ p ∈ st.eligible q, p ∉ st.unpruned agg q k normalize →
        agg (scoreVec st.nList normalize q p.1) < t) ∧
      min k (st.eligible q).length ≤ ((st.unpruned agg q k normalize).filter
        (fun p => t ≤ agg (scoreVec st.nList normalize q p.1))).length := by
  obtain ⟨ms', hms', hperm⟩ := minScores_perm hi q normalize
  rw [hms] at hms'
  injection hms' with hms'
  subst hms'
  have hlen : ms.length = (st.eligible q).length := by rw [hperm.length_eq, List.length_map]
  obtain ⟨t, ht, ht1, ht2⟩ := minAcceptable_spec (scores := ms.map (fun p => agg p.2)) (k := k) hk
    (by rw [Ne, List.map_eq_nil_iff]; exact hne)
  rw [List.length_map, hlen] at ht2
  simp only [List.length_map, hlen] at ht1
  -- scores as a function of the eligible words
  have hcount : ∀ P : S → Prop, ∀ [DecidablePred P],
      ((ms.map (fun p => agg p.2)).filter (fun x => P x)).length =
        ((st.eligible q).filter (fun p => P (agg (lowerVec st.nList normalize q p.1)))).length := by
    intro P _
    rw [((hperm.map _).filter _).length_eq, List.map_map, List.filter_map, List.length_map]
    rfl
  have hcount2 : ∀ P : S → Prop, ∀ [DecidablePred P],
      ((st.eligible q).filter (fun p => P (agg (lowerVec st.nList normalize q p.1)))).length =
      ((eligibleWords st.nList st.filterN q st.wordList).filter
        (fun w => P (agg (lowerVec st.nList normalize q w)))).length := by
    intro P _
    rw [← eligible_map_fst, List.filter_map, List.length_map]
    rfl
  have hout : ∀ p ∈ st.eligible q,
      (t ≤ agg ((lowerVec st.nList normalize q p.1).map (fun x => x * 2)) ↔
        ¬ Outranked agg st.nList st.filterN normalize q st.wordList k p.1) := by
    intro p hp
    rw [ht1, hcount (fun x => agg ((lowerVec st.nList normalize q p.1).map (fun x => x * 2)) < x)]
    unfold Outranked
    rw [← hcount2 (fun x => agg ((lowerVec st.nList normalize q p.1).map (fun x => x * 2)) < x),
      not_le]
    have hlt : ((st.eligible q).filter (fun p' =>
        agg ((lowerVec st.nList normalize q p.1).map (fun x => x * 2)) <
          agg (lowerVec st.nList normalize q p'.1))).length < (st.eligible q).length := by
      rw [List.length_filter_lt_length_iff_exists]
      refine ⟨p, hp, ?_⟩
      simpa using hagg _ _ (score_bounds st.nList normalize q p.1).2.2
    omega
  have hsurv : ∀ oi, oi ∈ survivors agg ms t ↔
      ∃ w, (w, oi) ∈ st.unpruned agg q k normalize := by
    intro oi
    unfold survivors
    rw [List.mem_map]
    constructor
    · rintro ⟨⟨i, v⟩, hm, rfl⟩
      rw [List.mem_filter] at hm
      obtain ⟨hm, hle⟩ := hm
      obtain ⟨p, hp, hpe⟩ := List.mem_map.1 (hperm.mem_iff.1 hm)
      injection hpe with h1 h2
      subst h1 h2
      refine ⟨p.1, ?_⟩
      unfold WL.unpruned
      rw [List.mem_filter]
      refine ⟨hp, ?_⟩
      rw [decide_eq_true_eq, ← hout p hp]
      simpa using hle
    · rintro ⟨w, hw⟩
      unfold WL.unpruned at hw
      rw [List.mem_filter, decide_eq_true_eq] at hw
      have := (hout _ hw.1).2 hw.2
      refine ⟨(oi, lowerVec st.nList normalize q w), ?_, rfl⟩
      rw [List.mem_filter]
      refine ⟨hperm.mem_iff.2 (List.mem_map.2 ⟨_, hw.1, rfl⟩), ?_⟩
      simpa using this
  refine ⟨t, ht, hsurv, ?_, ?_⟩
  · intro p hp hn
    have hle : ¬ t ≤ agg ((lowerVec st.nList normalize q p.1).map (fun x => x * 2)) := by
      rw [hout p hp]
      intro h
      apply hn
      unfold WL.unpruned
      rw [List.mem_filter, decide_eq_true_eq]
      exact ⟨hp, h⟩
    exact lt_of_le_of_lt (hagg _ _ (score_bounds st.nList normalize q p.1).2.1)
      (not_le.1 hle)
  · refine le_trans ht2 ?_
    rw [hcount (fun x => t ≤ x)]
    unfold WL.unpruned
    rw [List.filter_filter]
    rw [← List.countP_eq_length_filter, ← List.countP_eq_length_filter]
    apply List.countP_mono_left
    intro p hp hle
    rw [decide_eq_true_eq] at hle
    have h1 := hagg _ _ (score_bounds st.nList normalize q p.1).1
    have h2 := hagg _ _ (score_bounds st.nList normalize q p.1).2.2
    have h3 := (hout p hp).1 (le_trans hle h2)
    simp [h3, le_trans hle h1]


theorem v5bThreshold_eq {scores : List S} {k : ℕ} (hk : 1 ≤ k) (hs : scores ≠ []) :
    v5bThreshold scores (min k scores.length) = minAcceptable scores k := by
  have hl : 0 < scores.length := List.length_pos_iff.2 hs
  have hlen : ((sortDesc id scores).take (min k scores.length)).length = min k scores.length := by
    rw [List.length_take, length_sortDesc]; omega
  unfold v5bThreshold minAcceptable pyGetI pyIndex
  rw [hlen]
  have hj : min k scores.length - 1 < (sortDesc id scores).length := by
    rw [length_sortDesc]; omega
  have hj' : min k scores.length - 1 < ((sortDesc id scores).take (min k scores.length)).length := by
    rw [hlen]; omega
  rw [if_neg (by omega), if_pos (by omega), pyGet_ok hj]
  have e : ((min k scores.length : ℕ) + (-1 : ℤ)).toNat = min k scores.length - 1 := by omega
  simp only [e]
  rw [pyGet_ok hj', List.getElem_take]

theorem v5bEvents_nil (q : List Char) (normalize : Bool) : st.v5bEvents q normalize [] = [] := by
  simp [WL.v5bEvents]

/-- Result of `__lookup_similarity`: the words that were not pruned with their scores, in the order
in which the second pass comes across them. -/
theorem v5bLookupSimilarity_perm (hi : WLInv cf st) {agg : List ℚ → S} (hagg : MonotoneAgg agg)
    {q : List Char} (hq : q ≠ []) {k : ℕ} (hk : 1 ≤ k) (normalize : Bool) :
    ∃ scored, st.v5bLookupSimilarity agg q k normalize = .ok scored ∧
      scored.Perm ((st.unpruned agg q k normalize).map
        (fun p => (p.2, agg (scoreVec st.nList normalize q p.1)))) ∧
      (∃ possible, scored.map Prod.fst =
        Dict.keys (accum st.nList.length [] (st.v5bEvents q normalize possible))) ∧
      ∃ t, (∀ p ∈ st.eligible q, p ∉ st.unpruned agg q k normalize →
          agg (scoreVec st.nList normalize q p.1) < t) ∧
        min k (st.eligible q).length ≤ ((st.unpruned agg q k normalize).filter
          (fun p => t ≤ agg (scoreVec st.nList normalize q p.1))).length := by
  have hempty : st.eligible q = [] → ([] : List (ℕ × S)).Perm ((st.unpruned agg q k normalize).map
        (fun p => (p.2, agg (scoreVec st.nList normalize q p.1)))) ∧
      (∃ possible, ([] : List (ℕ × S)).map Prod.fst =
        Dict.keys (accum st.nList.length [] (st.v5bEvents q normalize possible))) ∧
      ∃ t, (∀ p ∈ st.eligible q, p ∉ st.unpruned agg q k normalize →
          agg (scoreVec st.nList normalize q p.1) < t) ∧
        min k (st.eligible q).length ≤ ((st.unpruned agg q k normalize).filter
          (fun p => t ≤ agg (scoreVec st.nList normalize q p.1))).length := by
    intro h
    refine ⟨?_, ⟨[], by rw [v5bEvents_nil]; rfl⟩, agg [], ?_⟩
    · unfold WL.unpruned; rw [h]; exact List.Perm.nil
    · rw [h]; simp
  unfold WL.v5bLookupSimilarity
  rw [if_neg (by simpa using hq)]
  rcases v5bCandidates_cases hi q with ⟨h1, h2⟩ | ⟨c, h1, h2⟩
  · rw [h1]
    exact ⟨[], rfl, hempty h2⟩
  · rw [h1]
    simp only [v5bMinScores_eq hi q normalize h2, bind, Except.bind, pure, Except.pure]
    have hms := minScores_eq hi q normalize
    obtain ⟨ms', hms', hperm⟩ := minScores_perm hi q normalize
    rw [hms] at hms'
    injection hms' with hms'
    rw [← hms'] at hperm
    generalize hM : accum st.nList.length [] (st.minEvents q normalize) = ms at *
    have hlen : ms.length = (st.eligible q).length := by rw [hperm.length_eq, List.length_map]
    by_cases he : ms = []
    · subst he
      have h0 : st.eligible q = [] := by rw [← List.length_eq_zero_iff, ← hlen]; rfl
      exact ⟨[], rfl, hempty h0⟩
    · have hpos : 0 < ms.length := List.length_pos_iff.2 he
      rw [if_neg (by simpa using he), if_neg (by omega)]
      obtain ⟨t, ht, hsurv, hlow, hmany⟩ := prune_spec hi hagg q hk normalize hms he
      have hth : v5bThreshold (ms.map (fun p => agg p.2)) (min k ms.length) = .ok t := by
        have := v5bThreshold_eq (scores := ms.map (fun p => agg p.2)) hk (by simpa using he)
        rw [List.length_map] at this
        rw [this, ht]
      rw [hth]
      simp only
      have hE : 0 < (st.eligible q).length := by omega
      have hunp : st.unpruned agg q k normalize ≠ [] := by
        intro h
        rw [h, List.filter_nil, List.length_nil] at hmany
        omega
      have hsn : ¬ (survivors agg ms t).isEmpty = true := by
        intro h
        obtain ⟨⟨w, i⟩, hp⟩ := List.exists_mem_of_ne_nil _ hunp
        have := (hsurv i).2 ⟨w, hp⟩
        rw [List.isEmpty_iff.1 h] at this
        cases this
      rw [if_neg hsn, v5bMatchScores_eq hi]
      simp only
      refine ⟨_, rfl, ?_, ⟨survivors agg ms t, ?_⟩, t, hlow, hmany⟩
      swap
      · rw [List.map_map]; rfl
      have hnd := nodup_keys_accum st.nList.length
        (st.v5bEvents q normalize (survivors agg ms t))
      have hrow : ∀ oi v, (oi, v) ∈ accum st.nList.length []
          (st.v5bEvents q normalize (survivors agg ms t)) ↔
          ∃ w, (w, oi) ∈ st.unpruned agg q k normalize ∧ v = scoreVec st.nList normalize q w := by
        intro oi v
        rw [Dict.mem_iff_get? hnd, get?_accum]
        have hun : ∀ w, (w, oi) ∈ st.unpruned agg q k normalize →
            st.wordList[oi]? = some w ∧ Eligible st.nList st.filterN q w := by
          intro w hw
          unfold WL.unpruned at hw
          rw [List.mem_filter] at hw
          exact mem_eligible.1 hw.1
        constructor
        · intro h
          split at h
          · rename_i hm
            obtain ⟨hp, w, hw, _⟩ := (mem_v5bEvents hi q normalize _ oi).1 hm
            injection h with h
            obtain ⟨w', hw'⟩ := (hsurv oi).1 hp
            have := (hun w' hw').1
            rw [hw] at this
            injection this with this
            subst this
            exact ⟨w, hw', by rw [← h, evTotal_v5bEvents hi q normalize hw hp]⟩
          · cases h
        · rintro ⟨w, hw, rfl⟩
          obtain ⟨h3, h4⟩ := hun w hw
          have hp := (hsurv oi).2 ⟨w, hw⟩
          rw [if_pos ((mem_v5bEvents hi q normalize _ oi).2 ⟨hp, w, h3, h4.2⟩),
            evTotal_v5bEvents hi q normalize h3 hp]
      have hp : (accum st.nList.length [] (st.v5bEvents q normalize (survivors agg ms t))).Perm
          ((st.unpruned agg q k normalize).map
            (fun p => (p.2, scoreVec st.nList normalize q p.1))) := by
        refine (List.perm_ext_iff_of_nodup (List.Nodup.of_map _ hnd) ?_).2 ?_
        · apply List.Nodup.of_map Prod.fst
          rw [List.map_map]
          exact (List.Sublist.map Prod.snd List.filter_sublist).nodup (nodup_eligible_snd q)
        · rintro ⟨oi, v⟩
          rw [hrow, List.mem_map]
          constructor
          · rintro ⟨w, hw, rfl⟩; exact ⟨(w, oi), hw, rfl⟩
          · rintro ⟨⟨w, i⟩, hm, he⟩
            injection he with h4 h5
            subst h4
            exact ⟨w, hm, h5.symm⟩
      have := hp.map (fun p => (p.1, agg p.2))
      rw [List.map_map] at this
      exact this

/-- Which words get a score, and that the best ones are among them. -/
theorem v5bLookupSimilarity_spec (hi : WLInv cf st) {agg : List ℚ → S} (hagg : MonotoneAgg agg)
    {q : List Char} (hq : q ≠ []) {k : ℕ} (hk : 1 ≤ k) (normalize : Bool) :
    ∃ scored, st.v5bLookupSimilarity agg q k normalize = .ok scored ∧
      (∀ r ∈ scored, ∃ w, st.wordList[r.1]? = some w ∧ Eligible st.nList st.filterN q w ∧
        r.2 = agg (scoreVec st.nList normalize q w)) ∧
      (scored.map Prod.fst).Nodup ∧
      TopScores ((eligibleWords st.nList st.filterN q st.wordList).map
          (fun w => agg (scoreVec st.nList normalize q w))) k
        (((sortDesc Prod.snd scored).map Prod.snd).take k) := by
  obtain ⟨scored, h1, h2, -, t, h3, h4⟩ := v5bLookupSimilarity_perm hi hagg hq hk normalize
  exact ⟨scored, h1, topScores_of_perm h2 h3 h4⟩

/-- State after a sequence of `add_word` calls, exceptions being caught by the caller. (The other
methods do not change the state: the `defaultdict`s are read with `.get` only,
experiments/gemini_optimized_v5.py:342 and 408.) -/
def WL.v5bRun (cf : List Char → List Char) (st : WL) (vs : List PyVal) : WL :=
  vs.foldl (fun st v => (st.v5bAddWord cf v).1) st

/-- States reachable from the constructor. -/
def WL.V5bReachable (cf : List Char → List Char) (st : WL) : Prop :=
  ∃ n cs fn st₀ vs, WL.v5bNew n cs fn = .ok st₀ ∧ st = st₀.v5bRun cf vs

theorem v5bNList_ok {n : NArg} {l : List ℤ} (h : v5bNList n = .ok l) : mkNList n = .ok l := by
  cases n with
  | other => cases h
  | int i =>
    unfold v5bNList at h
    unfold mkNList
    simp only at h ⊢
    split at h
    · cases h
    · rw [if_pos (by omega)]; exact h
  | iter ns =>
    unfold v5bNList at h
    unfold mkNList
    simp only at h ⊢
    split at h
    · cases h
    · rename_i hc
      rw [if_pos]
      · exact h
      · simp only [Bool.or_eq_true, not_or, Bool.not_eq_true, List.any_eq_false] at hc
        simp only [List.all_eq_true]
        intro x hx
        have := hc.2 x hx
        simpa using this

theorem v5bNew_ok {n : NArg} {cs : Option Bool} {fn : Option PyVal} {st : WL}
    (h : WL.v5bNew n cs fn = .ok st) :
    ∃ b f, cs = some b ∧ v5bFilterN fn = .ok f ∧ WL.new n b f = .ok st := by
  unfold WL.v5bNew at h
  cases hl : v5bNList n with
  | error e => rw [hl] at h; cases h
  | ok l =>
    rw [hl] at h
    cases cs with
    | none => cases h
    | some b =>
      cases hf : v5bFilterN fn with
      | error e => rw [hf] at h; cases h
      | ok f =>
        rw [hf] at h
        refine ⟨b, f, rfl, rfl, ?_⟩
        unfold WL.new
        rw [v5bNList_ok hl]
        exact h

theorem v5bRun_eq (hcf : ∀ w, cf (cf w) = cf w) (hi : WLInv cf st) (vs : List PyVal) :
    st.v5bRun cf vs = st.run cf (vs.map WLOp.add) := by
  induction vs using List.reverseRecOn with
  | nil => rfl
  | append_singleton vs v ih =>
    have h := hi.run hcf (vs.map WLOp.add)
    rw [List.map_append, List.map_cons, List.map_nil, run_append_singleton, ← ih]
    rw [← ih] at h
    unfold WL.v5bRun at *
    rw [List.foldl_append, List.foldl_cons, List.foldl_nil]
    exact v5bAddWord_state hcf h v

theorem WL.V5bReachable.reachable (hcf : ∀ w, cf (cf w) = cf w) (h : st.V5bReachable cf) :
    st.Reachable cf := by
  obtain ⟨n, cs, fn, st₀, vs, h0, rfl⟩ := h
  obtain ⟨b, f, _, _, h1⟩ := v5bNew_ok h0
  exact ⟨n, b, f, st₀, _, h1, v5bRun_eq hcf (WLInv.new h1) vs⟩

theorem v5bNList_ne_nil {n : NArg} {l : List ℤ} (h : v5bNList n = .ok l) : l ≠ [] := by
  unfold v5bNList at h
  cases n with
  | other => cases h
  | int i =>
    simp only at h
    split at h
    · cases h
    · injection h with h; subst h; simp
  | iter ns =>
    simp only at h
    split at h
    · cases h
    · rename_i hc
      injection h with h
      subst h
      simp only [Bool.or_eq_true, not_or, List.isEmpty_iff] at hc
      exact hc.1

theorem WL.V5bReachable.nList_ne_nil (hcf : ∀ w, cf (cf w) = cf w) (h : st.V5bReachable cf) :
    st.nList ≠ [] := by
  obtain ⟨n, cs, fn, st₀, vs, h0, rfl⟩ := h
  obtain ⟨b, f, _, _, h1⟩ := v5bNew_ok h0
  rw [v5bRun_eq hcf (WLInv.new h1), (config_run hcf (WLInv.new h1) _).1]
  unfold WL.v5bNew at h0
  cases hl : v5bNList n with
  | error e => rw [hl] at h0; cases h0
  | ok l =>
    rw [hl] at h0
    cases cs with
    | none => cases h0
    | some b =>
      cases hf : v5bFilterN fn with
      | error e => rw [hf] at h0; cases h0
      | ok f =>
        rw [hf] at h0
        injection h0 with h0
        subst h0
        exact v5bNList_ne_nil hl

end Verif
