import Verif.Fp.V5bModel
import Verif.Fp.V5bSpec
import Verif.Fp.IndexLookup
import Verif.Index.V5bRankProps

/-!
# `ApproxWordListV5b` with floats: state and the two passes
-/

namespace Verif
namespace Fp

open GramSpec IndexSpec

variable {R : FOps} {cf : List Char → List Char}

theorem v5bLocationsF_eq (gs : List (List Char)) :
    v5bLocationsF R gs = Dict.group (locatedOfF R gs) := by
  unfold v5bLocationsF Dict.group locatedOfF locatedOf
  rw [List.foldl_map, List.foldl_map]
  rfl

theorem v5bAddGramsF_eq (st : WL) (w : List Char) (idx : ℕ) :
    v5bAddGramsF R st w idx = addGramsF R st w idx := by
  unfold v5bAddGramsF addGramsF
  apply List.foldl_ext
  intro st n _
  rw [v5bLocationsF_eq, addLocationsF_eq]
  split
  · rename_i h
    rw [List.length_eq_zero_iff.1 h]; rfl
  · rfl

/-- Adding a word to the rounded list does what it does to the exact one. -/
theorem v5bAddWordF_rounded {st stF : WL} (h : Rounded R st stF) (v : PyVal) :
    Rounded R (st.v5bAddWord cf v).1 (v5bAddWordF R cf stF v).1 ∧
      (v5bAddWordF R cf stF v).2 = (st.v5bAddWord cf v).2 := by
  have h0 := h
  obtain ⟨Q, rfl, hQ⟩ := h
  cases v with
  | int i => exact ⟨h0, rfl⟩
  | other => exact ⟨h0, rfl⟩
  | str w =>
    unfold v5bAddWordF WL.v5bAddWord
    have hfold : WL.fold cf { st with ngramPositions := Q } w = st.fold cf w := rfl
    simp only [hfold]
    generalize st.fold cf w = w'
    split
    · exact ⟨h0, rfl⟩
    split
    · exact ⟨h0, rfl⟩
    split
    · exact ⟨h0, rfl⟩
    split
    · exact ⟨h0, rfl⟩
    · rename_i hw' _ _
      unfold WL.v5bResolve
      rw [if_neg hw', if_neg hw']
      simp only
      have key : ∀ (st : WL) (idx : ℕ), RoundedPos R st.ngramPositions Q →
          Rounded R ((st.addFilter w' idx).v5bAddGrams w' idx)
          (v5bAddGramsF R (WL.addFilter { st with ngramPositions := Q } w' idx) w' idx) := by
        intro st idx hQ
        rw [v5bAddGrams_eq, v5bAddGramsF_eq]
        apply addGramsF_rounded
        refine ⟨Q, addFilter_pos st Q w' idx, ?_⟩
        rw [addFilter_positions]; exact hQ
      cases Dict.get? st.wordIndices w' with
      | some i => exact ⟨key st i hQ, rfl⟩
      | none => exact ⟨key { st with
          wordIndices := Dict.set st.wordIndices w' st.wordList.length
          wordList := st.wordList ++ [w']
          wordLens := st.wordLens ++ [w'.length]
          wordNumGrams := st.wordNumGrams ++ [st.nList.map (numGrams w'.length)] }
          st.wordList.length hQ, rfl⟩

/-- Every reachable state is a reachable exact state with rounded positions. -/
theorem V5bReachableF.rounded {stF : WL} (h : V5bReachableF R cf stF) :
    ∃ st, st.V5bReachable cf ∧ Rounded R st stF := by
  obtain ⟨n, cs, fn, st₀, vs, h0, rfl⟩ := h
  refine ⟨st₀.v5bRun cf vs, ⟨n, cs, fn, st₀, vs, h0, rfl⟩, ?_⟩
  have hp : st₀.ngramPositions = [] := by
    unfold WL.v5bNew at h0
    cases hm : v5bNList n with
    | error e => rw [hm] at h0; cases h0
    | ok l =>
      rw [hm] at h0
      cases cs with
      | none => cases h0
      | some cs =>
        cases hf : v5bFilterN fn with
        | error e => rw [hf] at h0; cases h0
        | ok f =>
          rw [hf] at h0
          injection h0 with h0
          subst h0
          rfl
  induction vs using List.reverseRecOn with
  | nil =>
    refine ⟨st₀.ngramPositions, rfl, ?_⟩
    intro g
    have : (st₀.v5bRun cf []).ngramPositions = [] := hp
    rw [hp, this]; rfl
  | append_singleton vs v ih =>
    unfold v5bRunF WL.v5bRun at ih ⊢
    rw [List.foldl_append, List.foldl_append]
    exact (v5bAddWordF_rounded ih v).1

/-! ## First pass -/

/-- Divide, if the scores are normalised. -/
def shareUpd (R : FOps) (normalize : Bool) (d : ℚ) (x s : ℚ) : ℚ :=
  R.fl (s + (if normalize then R.fl (x / d) else R.fl x))

/-- Updates of the first pass. -/
def v5bMinUpdates (R : FOps) (st : WL) (q : List Char) (normalize : Bool) : List Update :=
  st.nList.zipIdx.flatMap (fun nk =>
    (counter (getNGrams q nk.1)).flatMap (fun gc =>
      ((Dict.get? st.ngramCounts gc.1).getD []).flatMap (fun e =>
        if st.skipped q e.1 then []
        else [(e.1, nk.2, shareUpd R normalize (st.den q true nk.1 e.1)
          ((min gc.2 e.2 : ℕ) : ℚ))])))

variable {st : WL}

theorem v5bMinScoresF_eq (hi : WLInv cf st) (q : List Char) (normalize : Bool) {c : List ℕ}
    (hc : ∀ i w, st.wordList[i]? = some w → (i ∉ c ↔ st.skipped q i)) :
    v5bMinScoresF R st q normalize c =
      .ok (accumU st.nList.length [] (v5bMinUpdates R st q normalize)) := by
  unfold v5bMinScoresF v5bMinUpdates accumU
  apply foldlM_flatMap_ok
  rintro ⟨n, k⟩ hnk ms
  have hk : st.nList[k]? = some n := List.mem_zipIdx_iff_getElem?.1 hnk
  have hn : 0 < n := hi.posN n (List.mem_of_getElem? hk)
  simp only
  by_cases hz : numGrams q.length n = 0
  · rw [if_pos hz, getNGrams_of_numGrams hz]; rfl
  rw [if_neg hz]
  apply foldlM_flatMap_ok
  rintro ⟨g, cnt⟩ hgc ms
  obtain ⟨hg1, hg2, hg3⟩ := gram_len hn hgc
  apply foldlM_flatMap_ok
  rintro e he ms
  obtain ⟨w, hw, _, hgw, he2⟩ := mem_counts hi he
  simp only at hgw
  unfold v5bMinStepF
  by_cases hs : st.skipped q e.1
  · simp only [if_pos hs]
    rw [if_pos ((hc _ _ hw).2 hs)]; rfl
  · simp only [if_neg hs]
    rw [if_neg (fun h => hs ((hc _ _ hw).1 h))]
    have h1 : st.wordNumGrams[e.1]? = some (st.nList.map (numGrams w.length)) := by
      rw [hi.nums, List.getElem?_map, hw]; rfl
    have h2 : (st.nList.map (numGrams w.length))[k]? = some (numGrams w.length n) := by
      rw [List.getElem?_map, hk]; rfl
    have hsh : Shares n q w := by
      refine ⟨g, ?_, ?_⟩
      · rw [← getNGrams_eq_gramsOf]; exact hg2
      · rw [← getNGrams_eq_gramsOf, ← hg1]; exact hgw
    have hd := denom_pos_of_shares hsh
    rw [denom_eq] at hd
    have hden := den_eq hi hw q true n
    rw [denom_eq] at hden
    simp only [if_true] at hden
    simp only [pyGet_ok' h1, pyGet_ok' h2, bind, Except.bind, gt_iff_lt, hd, if_true, pure,
      Except.pure, List.foldl_cons, List.foldl_nil, hden]
    rfl

/-- The first pass touches the same words as with exact arithmetic. -/
theorem map_fst_v5bMinUpdates (q : List Char) (normalize : Bool) :
    (v5bMinUpdates R st q normalize).map Prod.fst = (st.minEvents q normalize).map Prod.fst := by
  unfold v5bMinUpdates WL.minEvents
  simp only [List.map_flatMap]
  congr 1; funext nk
  congr 1; funext gc
  congr 1; funext e
  split <;> rfl

/-- The accumulated lower bounds of an eligible word. -/
theorem rowU_v5bMinUpdates (hi : WLInv cf st) (q : List Char) (normalize : Bool) {oi : ℕ}
    {w : List Char} (hw : st.wordList[oi]? = some w)
    (hf : st.filterN ≠ 0 → Shares st.filterN q w) :
    rowU st.nList.length (v5bMinUpdates R st q normalize) oi =
      sumLowerVecF R st.nList normalize q w := by
  have hns : ¬ st.skipped q oi := by rw [skipped_iff hi hw, not_not]; exact hf
  apply List.ext_getElem
  · simp [rowU, sumLowerVecF]
  intro k h1 h2
  have hk : k < st.nList.length := by simpa [rowU] using h1
  simp only [rowU, List.getElem_map, List.getElem_range, sumLowerVecF, v5bMinUpdates]
  rw [List.filter_flatMap]
  have key : ∀ nk ∈ st.nList.zipIdx,
      ((counter (getNGrams q nk.1)).flatMap (fun gc =>
        ((Dict.get? st.ngramCounts gc.1).getD []).flatMap (fun e =>
          if st.skipped q e.1 then []
          else [((e.1, nk.2, shareUpd R normalize (st.den q true nk.1 e.1)
            ((min gc.2 e.2 : ℕ) : ℚ)) : Update)]))).filter (cellOf oi k) =
      if nk.2 = k then (sharedGrams nk.1 q w).map (fun g => ((oi, k, shareUpd R normalize
        (st.den q true nk.1 oi)
        ((min ((gramsOf nk.1 q).count g) ((gramsOf nk.1 w).count g) : ℕ) : ℚ)) : Update)) else [] := by
    rintro ⟨n, k'⟩ hnk
    have hk' : st.nList[k']? = some n := List.mem_zipIdx_iff_getElem?.1 hnk
    have hnm : n ∈ st.nList := List.mem_of_getElem? hk'
    have hn : 0 < n := hi.posN n hnm
    simp only
    rw [List.filter_flatMap]
    have inner : ∀ gc ∈ counter (getNGrams q n),
        (((Dict.get? st.ngramCounts gc.1).getD []).flatMap (fun e =>
          if st.skipped q e.1 then []
          else [((e.1, k', shareUpd R normalize (st.den q true n e.1)
            ((min gc.2 e.2 : ℕ) : ℚ)) : Update)])).filter (cellOf oi k) =
        if k' = k then
          (if gc.1 ∈ gramsOf n w then [((oi, k, shareUpd R normalize (st.den q true n oi)
            ((min ((gramsOf n q).count gc.1) ((gramsOf n w).count gc.1) : ℕ) : ℚ)) : Update)]
            else []) else [] := by
      rintro ⟨g, c⟩ hgc
      obtain ⟨hg1, hg2, hg3⟩ := gram_len hn hgc
      simp only
      rw [List.filter_flatMap, flatMap_perm_posEntries
        (f := fun p => (p.1, p.2.length)) (fun _ => rfl) (hi.counts g) hw]
      · unfold posEntry
        rw [hg1, getNGrams_eq_gramsOf w n, hg3, getNGrams_eq_gramsOf q n]
        by_cases hgw : g ∈ gramsOf n w
        · rw [if_pos ⟨hnm, hgw⟩, if_pos hgw]
          by_cases hkk : k' = k
          · simp [hns, length_locs_locatedOf, cellOf, hkk]
          · simp [hns, cellOf, hkk]
        · rw [if_neg (fun h => hgw h.2), if_neg hgw]
          simp
      · intro e he
        split
        · rfl
        · simp [cellOf, he]
    rw [List.flatMap_congr inner, counter_eq_map, List.flatMap_map]
    by_cases hkk : k' = k
    · simp only [hkk, if_true]
      rw [keys_counter_firsts, getNGrams_eq_gramsOf]
      unfold sharedGrams
      generalize firsts (gramsOf n q) = l
      induction l with
      | nil => rfl
      | cons g l ih =>
        rw [List.flatMap_cons, ih, List.filter_cons]
        by_cases hg : g ∈ gramsOf n w <;> simp [hg]
    · simp [hkk]
  rw [List.flatMap_congr key]
  rw [flatMap_zipIdx_single st.nList (fun n => (sharedGrams n q w).map (fun g => ((oi, k,
    shareUpd R normalize (st.den q true n oi)
      ((min ((gramsOf n q).count g) ((gramsOf n w).count g) : ℕ) : ℚ)) : Update))) k hk]
  rw [applyAll_map, den_eq hi hw]
  rfl

/-- First pass: every eligible word, and no other, with its computed lower bounds. -/
theorem v5bMinUpdates_perm (hi : WLInv cf st) (q : List Char) (normalize : Bool) :
    (accumU st.nList.length [] (v5bMinUpdates R st q normalize)).Perm
      ((st.eligible q).map (fun p => (p.2, sumLowerVecF R st.nList normalize q p.1))) := by
  refine (List.perm_ext_iff_of_nodup
    (List.Nodup.of_map _ (nodup_keys_accumU _ _)) ?_).2 ?_
  · apply List.Nodup.of_map Prod.fst
    rw [List.map_map]
    exact nodup_eligible_snd q
  · rintro ⟨oi, v⟩
    rw [Dict.mem_iff_get? (nodup_keys_accumU _ _), get?_accumU, map_fst_v5bMinUpdates,
      List.mem_map (b := (oi, v))]
    constructor
    · intro h
      split at h
      · rename_i hm
        obtain ⟨w, hw, he⟩ := (mem_minEvents hi q normalize oi).1 hm
        injection h with h
        rw [rowU_v5bMinUpdates hi q normalize hw he.1] at h
        exact ⟨(w, oi), mem_eligible.2 ⟨hw, he⟩, by rw [h]⟩
      · cases h
    · rintro ⟨⟨w, i⟩, hm, he⟩
      injection he with h4 h5
      subst h4
      obtain ⟨hw, he⟩ := mem_eligible.1 hm
      rw [if_pos ((mem_minEvents hi q normalize i).2 ⟨w, hw, he⟩),
        rowU_v5bMinUpdates hi q normalize hw he.1, h5]

/-! ## Second pass -/

/-- What one shared n-gram adds to the score. -/
def partUpd (R : FOps) (normalize : Bool) (d : ℚ) (a b : List ℚ) (s : ℚ) : ℚ :=
  R.fl (s + (if normalize then
      R.fl (R.fl (R.fl ((a.length + b.length : ℕ) : ℚ) - emdF R a b) / d)
    else R.fl (R.fl ((a.length + b.length : ℕ) : ℚ) - emdF R a b)))

/-- Updates of the second pass. -/
def v5bUpdates (R : FOps) (st : WL) (q : List Char) (normalize : Bool) (possible : List ℕ) :
    List Update :=
  st.nList.zipIdx.flatMap (fun nk =>
    (Dict.group (locatedOfF R (getNGrams q nk.1))).flatMap (fun gl =>
      ((Dict.get? st.ngramPositions gl.1).getD []).flatMap (fun e =>
        if e.1 ∉ possible then []
        else [(e.1, nk.2, partUpd R normalize (st.den q true nk.1 e.1) gl.2 e.2)])))

theorem v5bMatchScoresF_eq (hi : WLInv cf st) {stF : WL} (hR : Rounded R st stF) (q : List Char)
    (normalize : Bool) (possible : List ℕ) :
    v5bMatchScoresF R stF q normalize possible =
      .ok (accumU st.nList.length [] (v5bUpdates R stF q normalize possible)) := by
  obtain ⟨Q, rfl, hQ⟩ := hR
  unfold v5bMatchScoresF v5bUpdates accumU
  apply foldlM_flatMap_ok
  rintro ⟨n, k⟩ hnk ms
  have hk : st.nList[k]? = some n := List.mem_zipIdx_iff_getElem?.1 hnk
  have hn : 0 < n := hi.posN n (List.mem_of_getElem? hk)
  simp only
  by_cases hz : numGrams q.length n = 0
  · rw [if_pos hz, getNGrams_of_numGrams hz]; rfl
  rw [if_neg hz, v5bLocationsF_eq]
  apply foldlM_flatMap_ok
  rintro ⟨g, l⟩ hgl ms
  rw [group_locatedOfF] at hgl
  obtain ⟨⟨g', l'⟩, hgl', he⟩ := List.mem_map.1 hgl
  injection he with he1 he2
  simp only at he1 he2
  subst he1 he2
  obtain ⟨hg2, -⟩ := mem_group_locatedOf.1 hgl'
  have hg1 := getNGrams_length hn hg2
  apply foldlM_flatMap_ok
  rintro e he ms
  unfold v5bMatchStepF
  by_cases hp : e.1 ∉ possible
  · simp only [if_pos hp]; rfl
  simp only [if_neg hp]
  rw [hQ] at he
  obtain ⟨e, he', rfl⟩ := List.mem_map.1 he
  simp only at he'
  rw [(hi.positions g').mem_iff] at he'
  obtain ⟨w, hw, hpe⟩ := mem_posEntries.1 he'
  obtain ⟨_, hgw, _⟩ := posEntry_some hpe
  have h1 : st.wordNumGrams[e.1]? = some (st.nList.map (numGrams w.length)) := by
    rw [hi.nums, List.getElem?_map, hw]; rfl
  have h2 : (st.nList.map (numGrams w.length))[k]? = some (numGrams w.length n) := by
    rw [List.getElem?_map, hk]; rfl
  have hsh : Shares n q w := by
    refine ⟨g', ?_, ?_⟩
    · rw [← getNGrams_eq_gramsOf]; exact hg2
    · rw [← getNGrams_eq_gramsOf, ← hg1]; exact hgw
  have hd := denom_pos_of_shares hsh
  rw [denom_eq] at hd
  have hden : WL.den { st with ngramPositions := Q } q true n e.1 = _ := den_eq hi hw q true n
  rw [denom_eq] at hden
  simp only [if_true] at hden
  have hf1 : (flEntry R e).1 = e.1 := rfl
  rw [hf1]
  cases normalize with
  | false => rfl
  | true =>
    simp only [if_true, pyGet_ok' h1, pyGet_ok' h2, bind, Except.bind, gt_iff_lt, hd, pure,
      Except.pure, List.foldl_cons, List.foldl_nil, hden]
    rfl

/-- The second pass touches the same words, in the same order, as with exact arithmetic. -/
theorem map_fst_v5bUpdates {stF : WL} (h : Rounded R st stF) (q : List Char) (normalize : Bool)
    (possible : List ℕ) :
    (v5bUpdates R stF q normalize possible).map Prod.fst =
      (st.v5bEvents q normalize possible).map Prod.fst := by
  obtain ⟨Q, rfl, hQ⟩ := h
  have hQ' : ∀ g, (Dict.get? Q g).getD [] =
    ((Dict.get? st.ngramPositions g).getD []).map (flEntry R) := hQ
  unfold v5bUpdates WL.v5bEvents
  simp only [List.map_flatMap, group_locatedOfF, List.flatMap_map, hQ']
  congr 1; funext nk
  congr 1; funext gc
  congr 1; funext e
  simp only [flEntry]
  by_cases hp : e.1 ∈ possible <;> simp [hp]

/-- The accumulated scores of a possible word. -/
theorem rowU_v5bUpdates (hi : WLInv cf st) {stF : WL} (hR : Rounded R st stF) (q : List Char)
    (normalize : Bool) {possible : List ℕ} {oi : ℕ} {w : List Char}
    (hidem : ∀ x, R.fl (R.fl x) = R.fl x) (hw : st.wordList[oi]? = some w)
    (hpos : oi ∈ possible) :
    rowU st.nList.length (v5bUpdates R stF q normalize possible) oi =
      sumScoreVecF R st.nList normalize q w := by
  obtain ⟨Q, rfl, hQ⟩ := hR
  apply List.ext_getElem
  · simp [rowU, sumScoreVecF]
  intro k h1 h2
  have hk : k < st.nList.length := by simpa [rowU] using h1
  have hdQ : ∀ n i, WL.den { st with ngramPositions := Q } q true n i = st.den q true n i :=
    fun _ _ => rfl
  simp only [rowU, List.getElem_map, List.getElem_range, v5bUpdates, sumScoreVecF, hdQ]
  rw [List.filter_flatMap]
  have key : ∀ nk ∈ st.nList.zipIdx,
      ((Dict.group (locatedOfF R (getNGrams q nk.1))).flatMap (fun gl =>
      ((Dict.get? Q gl.1).getD []).flatMap (fun e =>
        if e.1 ∉ possible then []
        else [((e.1, nk.2, partUpd R normalize (st.den q true nk.1 e.1) gl.2 e.2) : Update)]))).filter
          (cellOf oi k) =
      if nk.2 = k then (sharedGrams nk.1 q w).map (fun g =>
        ((oi, k, partUpd R normalize (st.den q true nk.1 oi) ((posOf (gramsOf nk.1 q) g).map R.fl)
          ((posOf (gramsOf nk.1 w) g).map R.fl)) : Update)) else [] := by
    rintro ⟨n, k'⟩ hnk
    have hk' : st.nList[k']? = some n := List.mem_zipIdx_iff_getElem?.1 hnk
    have hnm : n ∈ st.nList := List.mem_of_getElem? hk'
    have hn : 0 < n := hi.posN n hnm
    simp only
    rw [List.filter_flatMap]
    have inner : ∀ gl ∈ Dict.group (locatedOfF R (getNGrams q n)),
        (((Dict.get? Q gl.1).getD []).flatMap (fun e =>
          if e.1 ∉ possible then []
          else [((e.1, k', partUpd R normalize (st.den q true n e.1) gl.2 e.2) : Update)])).filter
            (cellOf oi k) =
        if k' = k then (if gl.1 ∈ gramsOf n w then
          [((oi, k, partUpd R normalize (st.den q true n oi) ((posOf (gramsOf n q) gl.1).map R.fl)
          ((posOf (gramsOf n w) gl.1).map R.fl)) : Update)] else []) else [] := by
      rintro ⟨g, l⟩ hgl
      rw [group_locatedOfF] at hgl
      obtain ⟨⟨g', l'⟩, hgl', he⟩ := List.mem_map.1 hgl
      injection he with he1 he2
      simp only at he1 he2
      subst he1 he2
      obtain ⟨hg, rfl⟩ := mem_group_locatedOf.1 hgl'
      have hg1 := getNGrams_length hn hg
      simp only
      rw [List.filter_flatMap, hQ, List.flatMap_map,
        flatMap_perm_posEntries (f := id) (fun _ => rfl) (by rw [List.map_id]; exact hi.positions g') hw]
      · unfold posEntry
        rw [hg1, getNGrams_eq_gramsOf w n, getNGrams_eq_gramsOf q n, posOf_eq, posOf_eq]
        by_cases hgw : g' ∈ gramsOf n w
        · rw [if_pos ⟨hnm, hgw⟩, if_pos hgw]
          by_cases hkk : k' = k
          · simp [flEntry, hpos, hkk, cellOf]
          · simp [flEntry, hpos, hkk, cellOf]
        · rw [if_neg (fun h => hgw h.2), if_neg hgw]
          simp
      · intro e he
        simp only [flEntry]
        by_cases hp : e.1 ∈ possible <;> simp [hp, cellOf, he]
    rw [List.flatMap_congr inner, Dict.group_eq_map, List.flatMap_map]
    by_cases hkk : k' = k
    · simp only [hkk, if_true]
      rw [keys_group_firsts, map_fst_locatedOfF, getNGrams_eq_gramsOf]
      unfold sharedGrams
      generalize firsts (gramsOf n q) = l
      induction l with
      | nil => rfl
      | cons g l ih =>
        rw [List.flatMap_cons, ih, List.filter_cons]
        by_cases hg : g ∈ gramsOf n w <;> simp [hg]
    · simp [hkk]
  rw [List.flatMap_congr key]
  rw [flatMap_zipIdx_single st.nList (fun n => (sharedGrams n q w).map (fun g =>
        ((oi, k, partUpd R normalize (st.den q true n oi) ((posOf (gramsOf n q) g).map R.fl)
          ((posOf (gramsOf n w) g).map R.fl)) : Update))) k hk]
  rw [applyAll_map, den_eq hi hw]
  unfold sumScoreNF
  apply List.foldl_ext
  intro s g _
  simp only [partUpd, partF, shareF, List.length_map, if_true, hidem]
  have hl : ∀ n v, (posOf (gramsOf n v) g).length = (gramsOf n v).count g := by
    intro n v
    rw [posOf_eq, length_locs_locatedOf]
  rw [hl, hl]

/-- The keys in the order of the updates. -/
theorem keys_accumU_v5b (N : ℕ) (ev : List Update) :
    Dict.keys (accumU N [] ev) = IndexSpec.firsts (ev.map Prod.fst) := by
  induction ev using List.reverseRecOn with
  | nil => rfl
  | append_singleton ev e ih =>
    rw [accumU_append_singleton, bumpWith, Dict.keys_set, ih, List.map_append, List.map_cons,
      List.map_nil, firsts_append_singleton]
    simp only [Verif.mem_firsts]

/-- Second pass: the possible words in the order in which the query comes across them. -/
theorem accumU_v5bUpdates (hi : WLInv cf st) (ho : st.Ordered) {stF : WL} (hR : Rounded R st stF)
    (hidem : ∀ x, R.fl (R.fl x) = R.fl x) (q : List Char) (normalize : Bool) (possible : List ℕ) :
    accumU st.nList.length [] (v5bUpdates R stF q normalize possible) =
      ((IndexSpec.firsts (st.metIdx q)).filter (fun i => i ∈ possible)).map
        (fun i => (i, sumScoreVecF R st.nList normalize q (st.wordAt i))) := by
  have hk := keys_accumU_v5b st.nList.length (v5bUpdates R stF q normalize possible)
  have hn := nodup_keys_accumU st.nList.length (v5bUpdates R stF q normalize possible)
  have hg := get?_accumU st.nList.length (v5bUpdates R stF q normalize possible)
  rw [map_fst_v5bUpdates hR, v5bEvents_fst ho] at hk
  rw [← hk]
  have : ∀ p ∈ accumU st.nList.length [] (v5bUpdates R stF q normalize possible),
      p = (p.1, sumScoreVecF R st.nList normalize q (st.wordAt p.1)) := by
    rintro ⟨i, v⟩ hp
    have hm : i ∈ Dict.keys (accumU st.nList.length [] (v5bUpdates R stF q normalize possible)) :=
      List.mem_map.2 ⟨_, hp, rfl⟩
    rw [hk, List.mem_filter, Verif.mem_firsts] at hm
    have h1 := hg i
    rw [(Dict.mem_iff_get? hn).1 hp] at h1
    split at h1
    · injection h1 with h1
      rw [h1, rowU_v5bUpdates hi hR q normalize hidem (mem_metIdx hm.1) (by simpa using hm.2)]
    · cases h1
  conv_lhs => rw [← List.map_id (accumU _ _ _)]
  unfold Dict.keys
  rw [List.map_map]
  exact List.map_congr_left this

end Fp
end Verif
