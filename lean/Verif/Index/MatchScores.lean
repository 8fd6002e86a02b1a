import Verif.Index.MinScores

/-!
# Second pass of the lookup: exact scores of the surviving words
-/

namespace Verif

open GramSpec IndexSpec

variable {cf : List Char → List Char} {st : WL}

/-- Events of the second pass. -/
def WL.matchEvents (st : WL) (q : List Char) (possible : List ℕ) : List Event :=
  st.nList.zipIdx.flatMap (fun nk =>
    (Dict.group (locatedOf (getNGrams q nk.1))).flatMap (fun gl =>
      ((Dict.get? st.ngramPositions gl.1).getD []).flatMap (fun e =>
        if e.1 ∉ possible then []
        else [(e.1, nk.2, (gl.2.length : ℚ) + e.2.length), (e.1, nk.2, -(emd gl.2 e.2))])))

theorem foldl_flatMap_eq {α β ε : Type} {f : β → α → β} {g : β → ε → β} {ev : α → List ε}
    (l : List α) (b : β) (h : ∀ a ∈ l, ∀ b, f b a = (ev a).foldl g b) :
    l.foldl f b = (l.flatMap ev).foldl g b := by
  induction l generalizing b with
  | nil => rfl
  | cons a l ih =>
    rw [List.foldl_cons, h a (by simp), List.flatMap_cons, List.foldl_append]
    exact ih _ (fun a ha => h a (by simp [ha]))

theorem matchScores_ok (q : List Char) (possible : List ℕ)
    (h : ∀ n ∈ st.nList, (getNGrams q n).length ≠ 1) :
    st.matchScores q possible = .ok (accum st.nList.length [] (st.matchEvents q possible)) := by
  unfold WL.matchScores WL.matchEvents accum
  apply foldlM_flatMap_ok
  rintro ⟨n, k⟩ hnk ms
  have hk : st.nList[k]? = some n := List.mem_zipIdx_iff_getElem?.1 hnk
  have hn := h n (List.mem_of_getElem? hk)
  simp only [queryLocations_eq, if_neg hn, bind, Except.bind, pure, Except.pure]
  congr 1
  apply foldl_flatMap_eq
  rintro ⟨g, l⟩ _ ms
  apply foldl_flatMap_eq
  rintro e _ ms
  unfold WL.matchStep
  by_cases hp : e.1 ∉ possible
  · simp only [if_pos hp]; rfl
  · simp only [if_neg hp]; rfl

theorem foldlM_error {α β : Type} {f : β → α → Except PyErr β} {e : PyErr} (l : List α) (b : β)
    (h : ∃ a ∈ l, ∀ b, f b a = .error e) (h' : ∀ a ∈ l, ∀ b, f b a = .error e ∨ ∃ c, f b a = .ok c) :
    l.foldlM f b = .error e := by
  induction l generalizing b with
  | nil => obtain ⟨a, ha, _⟩ := h; cases ha
  | cons a l ih =>
    rw [List.foldlM_cons]
    rcases h' a (by simp) b with he | ⟨c, hc⟩
    · rw [he]; rfl
    · rw [hc]
      simp only [bind, Except.bind]
      obtain ⟨x, hx, hx'⟩ := h
      rcases List.mem_cons.1 hx with rfl | hx
      · rw [hx' b] at hc; cases hc
      · exact ih c ⟨x, hx, hx'⟩ (fun a ha => h' a (by simp [ha]))

theorem matchScores_error (q : List Char) (possible : List ℕ)
    (h : ∃ n ∈ st.nList, (getNGrams q n).length = 1) :
    st.matchScores q possible = .error .zeroDivisionError := by
  obtain ⟨n, hn, h1⟩ := h
  obtain ⟨k, hk, rfl⟩ := List.getElem_of_mem hn
  unfold WL.matchScores
  apply foldlM_error
  · refine ⟨(st.nList[k], k), List.mem_zipIdx_iff_getElem?.2 (by simp [hk]), ?_⟩
    intro b
    simp only [queryLocations_eq, if_pos h1, bind, Except.bind]
  · rintro ⟨m, j⟩ _ b
    simp only [queryLocations_eq]
    by_cases hm : (getNGrams q m).length = 1
    · left; simp only [if_pos hm, bind, Except.bind]
    · right; simp only [if_neg hm, bind, Except.bind, pure, Except.pure]; exact ⟨_, rfl⟩

theorem mem_group_locatedOf {gs : List (List Char)} {g : List Char} {l : List ℚ} :
    (g, l) ∈ Dict.group (locatedOf gs) ↔ g ∈ gs ∧ l = Dict.locs (locatedOf gs) g := by
  rw [Dict.mem_iff_get? (Dict.nodup_keys_group _), Dict.get?_group, map_fst_locatedOf]
  by_cases h : g ∈ gs
  · simp only [h, true_and, if_true, Option.some.injEq]
    exact eq_comm
  · simp [h]

/-- Which words get a score. -/
theorem mem_matchEvents (hi : WLInv cf st) (q : List Char) (possible : List ℕ) (oi : ℕ) :
    oi ∈ (st.matchEvents q possible).map Prod.fst ↔
      oi ∈ possible ∧ ∃ w, st.wordList[oi]? = some w ∧ ∃ n ∈ st.nList, Shares n q w := by
  constructor
  · intro h
    rw [WL.matchEvents, List.map_flatMap] at h
    obtain ⟨⟨n, k⟩, hnk, h⟩ := List.mem_flatMap.1 h
    rw [List.map_flatMap] at h
    obtain ⟨⟨g, l⟩, hgl, h⟩ := List.mem_flatMap.1 h
    rw [List.map_flatMap] at h
    obtain ⟨e, he, h⟩ := List.mem_flatMap.1 h
    have hk : st.nList[k]? = some n := List.mem_zipIdx_iff_getElem?.1 hnk
    have hn : 0 < n := hi.posN n (List.mem_of_getElem? hk)
    obtain ⟨hg, rfl⟩ := mem_group_locatedOf.1 hgl
    have hg1 := getNGrams_length hn hg
    rw [(hi.positions g).mem_iff] at he
    obtain ⟨w, hw, hp⟩ := mem_posEntries.1 he
    obtain ⟨_, hgw, _⟩ := posEntry_some hp
    by_cases hp : e.1 ∉ possible
    · simp [hp] at h
    · simp only [if_neg hp] at h
      have : oi = e.1 := by simpa using h
      subst this
      refine ⟨not_not.1 hp, w, hw, n, List.mem_of_getElem? hk, g, ?_, ?_⟩
      · rw [← getNGrams_eq_gramsOf]; exact hg
      · rw [← getNGrams_eq_gramsOf, ← hg1]; exact hgw
  · rintro ⟨hpos, w, hw, n, hn, g, hgq, hgw⟩
    have hn0 : 0 < n := hi.posN n hn
    obtain ⟨k, hk, rfl⟩ := List.getElem_of_mem hn
    rw [← getNGrams_eq_gramsOf] at hgq hgw
    have hlen := getNGrams_length hn0 hgq
    have hpe : posEntry st.nList g w oi =
        some (oi, Dict.locs (locatedOf (getNGrams w g.length)) g) := by
      unfold posEntry
      rw [if_pos]
      rw [hlen]; exact ⟨hn, hgw⟩
    have hmem : (oi, Dict.locs (locatedOf (getNGrams w g.length)) g) ∈
        (Dict.get? st.ngramPositions g).getD [] := by
      rw [(hi.positions g).mem_iff]
      exact mem_posEntries.2 ⟨w, hw, hpe⟩
    have hz : (st.nList[k], k) ∈ st.nList.zipIdx :=
      List.mem_zipIdx_iff_getElem?.2 (by simp [hk])
    rw [WL.matchEvents, List.map_flatMap]
    refine List.mem_flatMap.2 ⟨_, hz, ?_⟩
    rw [List.map_flatMap]
    refine List.mem_flatMap.2 ⟨_, mem_group_locatedOf.2 ⟨hgq, rfl⟩, ?_⟩
    rw [List.map_flatMap]
    refine List.mem_flatMap.2 ⟨_, hmem, ?_⟩
    simp [hpos]

/-- The accumulated scores of a possible word. -/
theorem evTotal_matchEvents (hi : WLInv cf st) (q : List Char) {possible : List ℕ} {oi : ℕ}
    {w : List Char} (hw : st.wordList[oi]? = some w) (hpos : oi ∈ possible) :
    evTotal st.nList.length (st.matchEvents q possible) oi =
      st.nList.map (fun n => simN n q w) := by
  apply List.ext_getElem
  · simp [evTotal]
  intro k h1 h2
  have hk : k < st.nList.length := by simpa [evTotal] using h1
  simp only [evTotal, List.getElem_map, List.getElem_range, WL.matchEvents]
  rw [sum_map_flatMap]
  have key : ∀ nk ∈ st.nList.zipIdx,
      (((Dict.group (locatedOf (getNGrams q nk.1))).flatMap (fun gl =>
        ((Dict.get? st.ngramPositions gl.1).getD []).flatMap (fun e =>
          if e.1 ∉ possible then []
          else [((e.1, nk.2, (gl.2.length : ℚ) + e.2.length) : Event),
            (e.1, nk.2, -(emd gl.2 e.2))]))).map
        (fun e => if e.1 = oi ∧ e.2.1 = k then e.2.2 else 0)).sum =
      if nk.2 = k then simN nk.1 q w else 0 := by
    rintro ⟨n, k'⟩ hnk
    have hk' : st.nList[k']? = some n := List.mem_zipIdx_iff_getElem?.1 hnk
    have hnm : n ∈ st.nList := List.mem_of_getElem? hk'
    have hn : 0 < n := hi.posN n hnm
    simp only
    rw [sum_map_flatMap]
    have inner : ∀ gl ∈ Dict.group (locatedOf (getNGrams q n)),
        ((((Dict.get? st.ngramPositions gl.1).getD []).flatMap (fun e =>
          if e.1 ∉ possible then []
          else [((e.1, k', (gl.2.length : ℚ) + e.2.length) : Event),
            (e.1, k', -(emd gl.2 e.2))])).map
          (fun e => if e.1 = oi ∧ e.2.1 = k then e.2.2 else 0)).sum =
        if gl.1 ∈ (gramsOf n w).toFinset then
          (if k' = k then (((gramsOf n q).count gl.1 : ℚ) + (gramsOf n w).count gl.1
      - emd (posOf (gramsOf n q) gl.1) (posOf (gramsOf n w) gl.1)) else 0) else 0 := by
      rintro ⟨g, l⟩ hgl
      obtain ⟨hg, rfl⟩ := mem_group_locatedOf.1 hgl
      have hg1 := getNGrams_length hn hg
      simp only
      rw [sum_map_flatMap, ((hi.positions g).map _).sum_eq]
      rw [sum_posEntries hw]
      · unfold posEntry
        rw [hg1, getNGrams_eq_gramsOf w n, getNGrams_eq_gramsOf q n, posOf_eq, posOf_eq]
        by_cases hgw : g ∈ gramsOf n w
        · rw [if_pos ⟨hnm, hgw⟩, if_pos (List.mem_toFinset.2 hgw)]
          by_cases hkk : k' = k
          · simp [hpos, hkk, length_locs_locatedOf]; ring
          · simp [hpos, hkk]
        · rw [if_neg (fun h => hgw h.2), if_neg (fun h => hgw (List.mem_toFinset.1 h))]
      · intro e he
        split
        · rfl
        · simp [he]
    rw [List.map_congr_left inner, Dict.group_eq_map, List.map_map]
    simp only [Function.comp_def]
    rw [sum_keys_eq (Dict.nodup_keys_group _) (A := (gramsOf n q).toFinset) (by
      intro g; rw [keys_group_eq, List.mem_toFinset, getNGrams_eq_gramsOf])
      (fun g => if g ∈ (gramsOf n w).toFinset then
          (if k' = k then (((gramsOf n q).count g : ℚ) + (gramsOf n w).count g
      - emd (posOf (gramsOf n q) g) (posOf (gramsOf n w) g)) else 0) else 0)]
    rw [Finset.sum_ite_mem]
    by_cases hkk : k' = k
    · simp only [hkk, if_true, simN]
    · simp [hkk]
  rw [List.map_congr_left key]
  exact sum_zipIdx_single st.nList (fun n => simN n q w) k hk

/-- Second pass: the possible words that share an n-gram, with their exact similarities. -/
theorem matchScores_spec (hi : WLInv cf st) (q : List Char) (possible : List ℕ)
    (h : ∀ n ∈ st.nList, (getNGrams q n).length ≠ 1) :
    ∃ ms, st.matchScores q possible = .ok ms ∧ (Dict.keys ms).Nodup ∧
      ∀ oi v, (oi, v) ∈ ms ↔ oi ∈ possible ∧ ∃ w, st.wordList[oi]? = some w ∧
        (∃ n ∈ st.nList, Shares n q w) ∧ v = st.nList.map (fun n => simN n q w) := by
  refine ⟨_, matchScores_ok q possible h, nodup_keys_accum _ _, ?_⟩
  intro oi v
  rw [Dict.mem_iff_get? (nodup_keys_accum _ _), get?_accum]
  constructor
  · intro h
    split at h
    · rename_i hm
      obtain ⟨hp, w, hw, he⟩ := (mem_matchEvents hi q possible oi).1 hm
      injection h with h
      exact ⟨hp, w, hw, he, by rw [← h, evTotal_matchEvents hi q hw hp]⟩
    · cases h
  · rintro ⟨hp, w, hw, he, rfl⟩
    rw [if_pos ((mem_matchEvents hi q possible oi).2 ⟨hp, w, hw, he⟩),
      evTotal_matchEvents hi q hw hp]

/-- Normalisation of one row. -/
theorem normalizeRow_spec (hi : WLInv cf st) (q : List Char) (normalize : Bool) {oi : ℕ}
    {w : List Char} (hw : st.wordList[oi]? = some w) :
    st.normalizeRow q normalize (oi, st.nList.map (fun n => simN n q w)) =
      if normalize = true ∧ ∃ n ∈ st.nList, denom n q w = 0 then .error .zeroDivisionError
      else .ok (oi, scoreVec st.nList normalize q w) := by
  have hl : st.wordLens[oi]? = some w.length := by rw [hi.lens, List.getElem?_map, hw]; rfl
  unfold WL.normalizeRow
  simp only [pyGet_ok' hl, bind, Except.bind, pure, Except.pure]
  cases normalize with
  | false => simp [scoreVec, scoreN]
  | true =>
    simp only [if_true, true_and]
    have step : ∀ (l : List (ℤ × ℕ)), (∀ nk ∈ l, st.nList[nk.2]? = some nk.1) →
        l.mapM (fun nk => do
          let x ← pyGet (st.nList.map (fun n => simN n q w)) nk.2
          let den : ℤ := numGrams q.length nk.1 + numGrams w.length nk.1
          if den = 0 then throw PyErr.zeroDivisionError else return x / (den : ℚ)) =
        if ∃ n ∈ l.map Prod.fst, denom n q w = 0 then .error PyErr.zeroDivisionError
        else .ok (l.map (fun nk => scoreN true nk.1 q w)) := by
      intro l hl
      induction l with
      | nil => simp [pure, Except.pure]
      | cons p l ih =>
        obtain ⟨n, k⟩ := p
        have hk := hl (n, k) (by simp)
        simp only at hk
        have hx : (st.nList.map (fun n => simN n q w))[k]? = some (simN n q w) := by
          rw [List.getElem?_map, hk]; rfl
        rw [List.mapM_cons, ih (fun nk h => hl nk (by simp [h]))]
        simp only [pyGet_ok' hx, bind, Except.bind, ← denom_eq]
        by_cases hd : denom n q w = 0
        · have hex : ∃ m ∈ ((n, k) :: l).map Prod.fst, denom m q w = 0 := ⟨n, by simp, hd⟩
          rw [if_pos (c := denom n q w = 0) hd, if_pos hex]; rfl
        · rw [if_neg (c := denom n q w = 0) hd]
          by_cases hr : ∃ n ∈ l.map Prod.fst, denom n q w = 0
          · have hex : ∃ m ∈ ((n, k) :: l).map Prod.fst, denom m q w = 0 := by
              obtain ⟨m, hm, h0⟩ := hr
              exact ⟨m, by rw [List.map_cons]; exact List.mem_cons_of_mem _ hm, h0⟩
            rw [if_pos hr, if_pos hex]; rfl
          · have hex : ¬ ∃ m ∈ ((n, k) :: l).map Prod.fst, denom m q w = 0 := by
              rintro ⟨m, hm, h0⟩
              rw [List.map_cons, List.mem_cons] at hm
              rcases hm with rfl | hm
              · exact hd h0
              · exact hr ⟨m, hm, h0⟩
            rw [if_neg hr, if_neg hex]
            simp [pure, Except.pure, scoreN]
    have := step st.nList.zipIdx (fun nk h => List.mem_zipIdx_iff_getElem?.1 h)
    simp only [bind, Except.bind, pure, Except.pure] at this
    rw [this]
    have e1 : st.nList.zipIdx.map Prod.fst = st.nList := by simp
    rw [e1]
    by_cases hr : ∃ n ∈ st.nList, denom n q w = 0
    · rw [if_pos hr, if_pos hr]
    · rw [if_neg hr, if_neg hr]
      have e2 : st.nList.zipIdx.map (fun nk => scoreN true nk.1 q w) = scoreVec st.nList true q w := by
        unfold scoreVec
        conv_rhs => rw [← e1]
        rw [List.map_map]; rfl
      rw [e2]

end Verif
