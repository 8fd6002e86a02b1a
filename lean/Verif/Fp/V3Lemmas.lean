import Verif.Fp.V3Model
import Verif.Fp.V3Spec
import Verif.Fp.ScanLemmas
import Verif.Index.V3RankProps

/-!
# `ApproxWordListV3` with floats: the state and the whole lookup
-/

namespace Verif
namespace Fp

open GramSpec IndexSpec

variable {R : FOps} {cf : List Char → List Char} {st stF : V3}

/-- `stF` is `st` with rounded positions. -/
def V3Rounded (R : FOps) (st stF : V3) : Prop :=
  ∃ Q, stF = { st with ngramIndices := Q } ∧ RoundedPos R st.ngramIndices Q

/-! ## Adding words -/

theorem v3Grams_foldl (R : FOps) (ns : List ℤ) (w : List Char) (idx : ℕ)
    {P Q : Dict (List Char) (List (ℕ × List ℚ))} (h : RoundedPos R P Q) :
    RoundedPos R
      (ns.foldl (fun d n => (addLocations (v3AddGrams w n)).foldl
        (fun d it => Dict.appendTo d it.1 (idx, it.2)) d) P)
      (ns.foldl (fun d n => (addLocationsF R (v3AddGrams w n)).foldl
        (fun d it => Dict.appendTo d it.1 (idx, it.2)) d) Q) := by
  induction ns generalizing P Q with
  | nil => exact h
  | cons n ns ih =>
    rw [List.foldl_cons, List.foldl_cons]
    apply ih
    intro g
    rw [addLocationsF_eq, addLocations_eq, group_locatedOfF, List.foldl_map,
      getD_foldl_appendTo (f := fun it : List Char × List ℚ => it.1)
        (v := fun it : List Char × List ℚ => (idx, it.2.map R.fl)),
      getD_foldl_appendTo (f := fun it : List Char × List ℚ => it.1)
        (v := fun it : List Char × List ℚ => (idx, it.2)), h, List.map_append, List.map_map]
    rfl

theorem v3Resolve_pos (st : V3) (Q : Dict (List Char) (List (ℕ × List ℚ))) (w : List Char) (a : Bool) :
    V3.resolve cf { st with ngramIndices := Q } w a =
      ({ (st.resolve cf w a).1 with ngramIndices := Q }, (st.resolve cf w a).2) := by
  have hfold : V3.fold cf { st with ngramIndices := Q } w = st.fold cf w := rfl
  unfold V3.resolve
  simp only [hfold]
  generalize st.fold cf w = w'
  split
  · rfl
  · cases Dict.get? st.vocabIndices w' with
    | some i => rfl
    | none =>
      simp only
      split
      · rfl
      · split <;> rfl

theorem v3Resolve_positions (st : V3) (w : List Char) (a : Bool) :
    (st.resolve cf w a).1.ngramIndices = st.ngramIndices := by
  unfold V3.resolve
  split
  · rfl
  · simp only
    split
    · rfl
    · split
      · rfl
      · split <;> rfl

/-- Adding a word to the rounded list does what it does to the exact one. -/
theorem v3AddWordF_rounded (h : V3Rounded R st stF) (v : PyVal) :
    V3Rounded R (st.addWord cf v).1 (v3AddWordF R cf stF v).1 ∧
      (v3AddWordF R cf stF v).2 = (st.addWord cf v).2 := by
  have h0 := h
  obtain ⟨Q, rfl, hQ⟩ := h
  cases v with
  | int i => exact ⟨h0, rfl⟩
  | other => exact ⟨h0, rfl⟩
  | str w =>
    unfold v3AddWordF V3.addWord
    have hfold : V3.fold cf { st with ngramIndices := Q } w = st.fold cf w := rfl
    simp only [hfold]
    generalize st.fold cf w = w'
    split
    · exact ⟨h0, rfl⟩
    split
    · exact ⟨h0, rfl⟩
    split
    · exact ⟨h0, rfl⟩
    · rw [v3Resolve_pos st Q w']
      have hp := v3Resolve_positions (cf := cf) st w' true
      cases hr : (st.resolve cf w' true) with
      | mk st' o =>
        rw [hr] at hp
        simp only at hp
        cases o with
        | error e =>
          refine ⟨⟨Q, rfl, ?_⟩, rfl⟩
          simp only
          rw [hp]; exact hQ
        | ok idx =>
          refine ⟨⟨_, rfl, ?_⟩, rfl⟩
          simp only [V3.addGrams]
          apply v3Grams_foldl
          rw [hp]; exact hQ

theorem v3AddAllF_rounded (h : V3Rounded R st stF) (args : List PyVal) :
    V3Rounded R (st.addAll cf args) (v3AddAllF R cf stF args) := by
  induction args using List.reverseRecOn with
  | nil => exact h
  | append_singleton args v ih =>
    unfold v3AddAllF V3.addAll at ih ⊢
    rw [List.foldl_append, List.foldl_append]
    exact (v3AddWordF_rounded ih v).1

theorem v3New_rounded {n : NArg} {cs : Bool} {st₀ : V3} (h : V3.new n cs = .ok st₀) :
    V3Rounded R st₀ st₀ := by
  refine ⟨st₀.ngramIndices, rfl, ?_⟩
  have : st₀.ngramIndices = [] := by
    unfold V3.new at h
    cases n <;> simp only [Except.ok.injEq, reduceCtorEq] at h <;> subst h <;> rfl
  rw [this]
  intro g
  rfl

theorem V3ReachableF.rounded (h : V3ReachableF R cf stF) :
    ∃ st, st.Reachable cf ∧ V3Rounded R st stF := by
  obtain ⟨n, cs, st₀, args, h0, hn, rfl⟩ := h
  exact ⟨_, ⟨n, cs, st₀, args, h0, hn, rfl⟩, v3AddAllF_rounded (v3New_rounded h0) args⟩

theorem V3ReachableF.addAll (h : V3ReachableF R cf stF) (args : List PyVal) :
    V3ReachableF R cf (v3AddAllF R cf stF args) := by
  obtain ⟨n, cs, st₀, args₀, h0, hn, rfl⟩ := h
  exact ⟨n, cs, st₀, args₀ ++ args, h0, hn, by simp [v3AddAllF]⟩

theorem V3Rounded.eqs (h : V3Rounded R st stF) : stF.nList = st.nList ∧
    stF.vocabulary = st.vocabulary ∧ stF.caseInsensitive = st.caseInsensitive := by
  obtain ⟨Q, rfl, _⟩ := h
  exact ⟨rfl, rfl, rfl⟩

theorem V3Rounded.fold (h : V3Rounded R st stF) (w : List Char) :
    stF.fold cf w = st.fold cf w := by
  obtain ⟨Q, rfl, _⟩ := h
  rfl

/-! ## The matching loop -/

/-- The rounded contribution of one pair of lists of positions. -/
def step3F (R : FOps) (a b : List ℚ) (s : ℚ) : ℚ :=
  R.fl (s + R.fl (R.fl ((max a.length b.length : ℕ) : ℚ) - emdF R a b))

/-- Updates of the matching loop. -/
def v3Updates (R : FOps) (st : V3) (q : List Char) : List Update :=
  st.nList.zipIdx.flatMap (fun nk =>
    (Dict.group (locatedOfF R (v3QueryGrams q nk.1))).flatMap (fun gl =>
      ((Dict.get? st.ngramIndices gl.1).getD []).map (fun e =>
        (e.1, nk.2, step3F R gl.2 e.2))))

theorem v3MatchesF_ok (q : List Char) (h : ∀ n ∈ st.nList, (v3QueryGrams q n).length ≠ 1) :
    v3MatchesF R st q = .ok (accumU st.nList.length [] (v3Updates R st q)) := by
  unfold v3MatchesF v3Updates accumU
  apply foldlM_flatMap_ok
  rintro ⟨n, k⟩ hnk ms
  have hk : st.nList[k]? = some n := List.mem_zipIdx_iff_getElem?.1 hnk
  have hn := h n (List.mem_of_getElem? hk)
  simp only [queryLocationsF_eq, if_neg hn, bind, Except.bind, pure, Except.pure]
  congr 1
  apply foldl_flatMap_eq
  rintro ⟨g, l⟩ _ ms
  rw [List.foldl_map]
  rfl

theorem v3MatchesF_error (q : List Char) (h : ∃ n ∈ st.nList, (v3QueryGrams q n).length = 1) :
    v3MatchesF R st q = .error .zeroDivisionError := by
  obtain ⟨n, hn, h1⟩ := h
  obtain ⟨k, hk, rfl⟩ := List.getElem_of_mem hn
  unfold v3MatchesF
  apply foldlM_error
  · refine ⟨(st.nList[k], k), List.mem_zipIdx_iff_getElem?.2 (by simp [hk]), ?_⟩
    intro b
    simp only [queryLocationsF_eq, if_pos h1, bind, Except.bind]
  · rintro ⟨m, j⟩ _ b
    simp only [queryLocationsF_eq]
    by_cases hm : (v3QueryGrams q m).length = 1
    · left; simp only [if_pos hm, bind, Except.bind]
    · right; simp only [if_neg hm, bind, Except.bind, pure, Except.pure]; exact ⟨_, rfl⟩

/-- The loop touches the same words, in the same order, as with exact arithmetic. -/
theorem map_fst_v3Updates (h : V3Rounded R st stF) (q : List Char) :
    (v3Updates R stF q).map Prod.fst = (st.events q).map Prod.fst := by
  obtain ⟨Q, rfl, hQ⟩ := h
  have hQ' : ∀ g, (Dict.get? Q g).getD [] =
    ((Dict.get? st.ngramIndices g).getD []).map (flEntry R) := hQ
  unfold v3Updates V3.events
  simp only [List.map_flatMap, group_locatedOfF, List.flatMap_map, hQ', List.map_map]
  rfl

/-- The accumulated scores of a word. -/
theorem rowU_v3Updates (hi : V3Inv cf st) (hR : V3Rounded R st stF) (q : List Char)
    {oi : ℕ} {w : List Char} (hw : st.vocabulary[oi]? = some w) :
    rowU st.nList.length (v3Updates R stF q) oi = st.nList.map (fun n => overlap3F R n q w) := by
  obtain ⟨Q, rfl, hQ⟩ := hR
  apply List.ext_getElem
  · simp [rowU]
  intro k h1 h2
  have hk : k < st.nList.length := by simpa [rowU] using h1
  simp only [rowU, List.getElem_map, List.getElem_range, v3Updates]
  rw [List.filter_flatMap]
  have key : ∀ nk ∈ st.nList.zipIdx,
      ((Dict.group (locatedOfF R (v3QueryGrams q nk.1))).flatMap (fun gl =>
      ((Dict.get? Q gl.1).getD []).map (fun e =>
        ((e.1, nk.2, step3F R gl.2 e.2) : Update)))).filter (cellOf oi k) =
      if nk.2 = k then (shared3 nk.1 q w).map (fun g =>
        ((oi, k, step3F R ((posOf (grams nk.1.toNat q) g).map R.fl)
          ((posOf (gramsOf nk.1 w) g).map R.fl)) : Update)) else [] := by
    rintro ⟨n, k'⟩ hnk
    have hk' : st.nList[k']? = some n := List.mem_zipIdx_iff_getElem?.1 hnk
    have hnm : n ∈ st.nList := List.mem_of_getElem? hk'
    have hn : 0 < n := hi.posN n hnm
    simp only
    rw [List.filter_flatMap, v3QueryGrams_eq hn]
    have inner : ∀ gl ∈ Dict.group (locatedOfF R (grams n.toNat q)),
        (((Dict.get? Q gl.1).getD []).map (fun e =>
          ((e.1, k', step3F R gl.2 e.2) : Update))).filter (cellOf oi k) =
        if k' = k then (if gl.1 ∈ gramsOf n w then
          [((oi, k, step3F R ((posOf (grams n.toNat q) gl.1).map R.fl)
          ((posOf (gramsOf n w) gl.1).map R.fl)) : Update)] else []) else [] := by
      rintro ⟨g, l⟩ hgl
      rw [group_locatedOfF] at hgl
      obtain ⟨⟨g', l'⟩, hgl', he⟩ := List.mem_map.1 hgl
      injection he with he1 he2
      simp only at he1 he2
      subst he1 he2
      obtain ⟨hg, rfl⟩ := mem_group_locatedOf.1 hgl'
      have hg1 := v3_length_of_mem hn hg
      simp only
      rw [List.map_eq_flatMap, List.filter_flatMap, hQ, List.flatMap_map,
        flatMap_perm_posEntries (f := id) (fun _ => rfl)
          (by rw [List.map_id, hi.positions g']) hw]
      · unfold posEntry
        rw [hg1, getNGrams_eq_gramsOf w n, posOf_eq, posOf_eq]
        by_cases hgw : g' ∈ gramsOf n w
        · rw [if_pos ⟨hnm, hgw⟩, if_pos hgw]
          by_cases hkk : k' = k
          · simp [flEntry, hkk, cellOf]
          · simp [flEntry, hkk, cellOf]
        · rw [if_neg (fun h => hgw h.2), if_neg hgw]
          simp
      · intro e he
        simp [flEntry, cellOf, he]
    rw [List.flatMap_congr inner, Dict.group_eq_map, List.flatMap_map]
    by_cases hkk : k' = k
    · simp only [hkk, if_true]
      rw [keys_group_firsts, map_fst_locatedOfF]
      unfold shared3
      generalize firsts (grams n.toNat q) = l
      induction l with
      | nil => rfl
      | cons g l ih =>
        rw [List.flatMap_cons, ih, List.filter_cons]
        by_cases hg : g ∈ gramsOf n w <;> simp [hg]
    · simp [hkk]
  rw [List.flatMap_congr key]
  rw [flatMap_zipIdx_single st.nList (fun n => (shared3 n q w).map (fun g =>
        ((oi, k, step3F R ((posOf (grams n.toNat q) g).map R.fl)
          ((posOf (gramsOf n w) g).map R.fl)) : Update))) k hk]
  rw [applyAll_map]
  unfold overlap3F
  apply List.foldl_ext
  intro s g _
  simp only [step3F, part3F, List.length_map, length_posOf]

/-- The matched words in the order in which the query comes across them. -/
theorem accumU_v3Updates (hi : V3Inv cf st) (hR : V3Rounded R st stF) (q : List Char) :
    accumU st.nList.length [] (v3Updates R stF q) =
      (IndexSpec.firsts ((st.events q).map Prod.fst)).map
        (fun i => (i, st.nList.map (fun n => overlap3F R n q (st.wordAt i)))) := by
  have hk := keys_accumU_v5b st.nList.length (v3Updates R stF q)
  have hn := nodup_keys_accumU st.nList.length (v3Updates R stF q)
  have hg := get?_accumU st.nList.length (v3Updates R stF q)
  rw [map_fst_v3Updates hR] at hk
  rw [← hk]
  have : ∀ p ∈ accumU st.nList.length [] (v3Updates R stF q),
      p = (p.1, st.nList.map (fun n => overlap3F R n q (st.wordAt p.1))) := by
    rintro ⟨i, v⟩ hp
    have hm : i ∈ Dict.keys (accumU st.nList.length [] (v3Updates R stF q)) :=
      List.mem_map.2 ⟨_, hp, rfl⟩
    rw [hk, Verif.mem_firsts] at hm
    obtain ⟨w, hw, -⟩ := (V3.mem_events hi q i).1 hm
    have h1 := hg i
    rw [(Dict.mem_iff_get? hn).1 hp] at h1
    split at h1
    · injection h1 with h1
      rw [h1, rowU_v3Updates hi hR q hw, V3.wordAt_eq hw]
    · cases h1
  conv_lhs => rw [← List.map_id (accumU _ _ _)]
  unfold Dict.keys
  rw [List.map_map]
  exact List.map_congr_left this

/-! ## Normalisation -/

theorem v3NormalizeRowF_spec (hpos : ∀ n ∈ st.nList, 0 < n) (q : List Char) (oi : ℕ)
    (w : List Char) :
    v3NormalizeRowF R st q (oi, st.nList.map (fun n => overlap3F R n q w)) =
      if ∃ n ∈ st.nList, (q.length : ℤ) + 3 = n then .error .zeroDivisionError
      else .ok (oi, scoreVec3F R st.nList q w) := by
  have hden : ∀ n ∈ st.nList, numGrams q.length n = (q.length : ℤ) + 3 - n := by
    intro n hn
    have := hpos n hn
    unfold numGrams
    split <;> omega
  unfold v3NormalizeRowF
  simp only [bind, Except.bind, pure, Except.pure]
  have step : ∀ (l : List (ℤ × ℕ)), (∀ nk ∈ l, st.nList[nk.2]? = some nk.1) →
      l.mapM (fun nk => do
        let x ← pyGet (st.nList.map (fun n => overlap3F R n q w)) nk.2
        let den : ℤ := numGrams q.length nk.1
        if den = 0 then throw PyErr.zeroDivisionError else return R.fl (x / (den : ℚ))) =
      if ∃ n ∈ l.map Prod.fst, (q.length : ℤ) + 3 = n then .error PyErr.zeroDivisionError
      else .ok (l.map (fun nk => score3F R nk.1 q w)) := by
    intro l hl
    induction l with
    | nil => simp [pure, Except.pure]
    | cons p l ih =>
      obtain ⟨n, k⟩ := p
      have hk := hl (n, k) (by simp)
      simp only at hk
      have hx : (st.nList.map (fun n => overlap3F R n q w))[k]? = some (overlap3F R n q w) := by
        rw [List.getElem?_map, hk]; rfl
      rw [List.mapM_cons, ih (fun nk h => hl nk (by simp [h]))]
      simp only [pyGet_ok' hx, bind, Except.bind, hden n (List.mem_of_getElem? hk)]
      by_cases hd : (q.length : ℤ) + 3 = n
      · have hex : ∃ m ∈ ((n, k) :: l).map Prod.fst, (q.length : ℤ) + 3 = m := ⟨n, by simp, hd⟩
        rw [if_pos (c := (q.length : ℤ) + 3 - n = 0) (by omega), if_pos hex]; rfl
      · rw [if_neg (c := (q.length : ℤ) + 3 - n = 0) (by omega)]
        by_cases hr : ∃ n ∈ l.map Prod.fst, (q.length : ℤ) + 3 = n
        · have hex : ∃ m ∈ ((n, k) :: l).map Prod.fst, (q.length : ℤ) + 3 = m := by
            obtain ⟨m, hm, h0⟩ := hr
            exact ⟨m, by rw [List.map_cons]; exact List.mem_cons_of_mem _ hm, h0⟩
          rw [if_pos hr, if_pos hex]; rfl
        · have hex : ¬ ∃ m ∈ ((n, k) :: l).map Prod.fst, (q.length : ℤ) + 3 = m := by
            rintro ⟨m, hm, h0⟩
            rw [List.map_cons, List.mem_cons] at hm
            rcases hm with rfl | hm
            · exact hd h0
            · exact hr ⟨m, hm, h0⟩
          rw [if_neg hr, if_neg hex]
          simp [pure, Except.pure, score3F]
  have := step st.nList.zipIdx (fun nk h => List.mem_zipIdx_iff_getElem?.1 h)
  simp only [bind, Except.bind, pure, Except.pure] at this
  rw [this]
  have e1 : st.nList.zipIdx.map Prod.fst = st.nList := by simp
  rw [e1]
  by_cases hr : ∃ n ∈ st.nList, (q.length : ℤ) + 3 = n
  · rw [if_pos hr, if_pos hr]
  · rw [if_neg hr, if_neg hr]
    have e2 : st.nList.zipIdx.map (fun nk => score3F R nk.1 q w) = scoreVec3F R st.nList q w := by
      unfold scoreVec3F
      conv_rhs => rw [← e1]
      rw [List.map_map]; rfl
    rw [e2]

/-! ## The lookup -/

variable {S : Type} [LinearOrder S]

omit [LinearOrder S] in
/-- The candidates with their scores in order, or the reason why there are none. -/
theorem v3LookupScoresF_exact (agg : List ℚ → S) (hi : V3Inv cf st) (hR : V3Rounded R st stF)
    (q : List Char) :
    if ∃ n ∈ st.nList, (q.length : ℤ) + 2 = n then
      v3LookupScoresF R agg stF q = .error .zeroDivisionError
    else ∃ l : List (ℕ × List Char),
      l.map Prod.snd = discovered3 st.nList q st.vocabulary ∧
      (∀ p ∈ l, st.vocabulary[p.1]? = some p.2) ∧
      v3LookupScoresF R agg stF q =
        if l ≠ [] ∧ ∃ n ∈ st.nList, (q.length : ℤ) + 3 = n then .error .zeroDivisionError
        else .ok (l.map (fun p => (p.1, agg (scoreVec3F R st.nList q p.2)))) := by
  have hlen : ∀ n ∈ st.nList, (v3QueryGrams q n).length = 1 ↔ (q.length : ℤ) + 2 = n := by
    intro n hn
    have := hi.posN n hn
    rw [v3QueryGrams_eq this, grams, List.length_map, List.length_range, count_eq]
    omega
  have en := hR.eqs.1
  split
  · rename_i h
    obtain ⟨n, hn, h⟩ := h
    unfold v3LookupScoresF
    rw [v3MatchesF_error q ⟨n, by rw [en]; exact hn, (hlen n hn).2 h⟩]
    rfl
  · rename_i h
    have hne : ∀ n ∈ stF.nList, (v3QueryGrams q n).length ≠ 1 := by
      rw [en]
      exact fun n hn h' => h ⟨n, hn, (hlen n hn).1 h'⟩
    refine ⟨(IndexSpec.firsts ((st.events q).map Prod.fst)).map (fun i => (i, st.wordAt i)), ?_, ?_, ?_⟩
    · rw [List.map_map, ← V3.events_words hi]; rfl
    · intro p hp
      obtain ⟨i, hi', rfl⟩ := List.mem_map.1 hp
      obtain ⟨w, hw, -⟩ := (V3.mem_events hi q i).1 (Verif.mem_firsts.1 hi')
      simp only
      rw [V3.wordAt_eq hw, hw]
    · unfold v3LookupScoresF
      rw [v3MatchesF_ok q hne, en, accumU_v3Updates hi hR]
      simp only [bind, Except.bind]
      generalize IndexSpec.firsts ((st.events q).map Prod.fst) = l
      have hrow : ∀ oi w, v3NormalizeRowF R stF q (oi, st.nList.map (fun n => overlap3F R n q w)) =
          if ∃ n ∈ st.nList, (q.length : ℤ) + 3 = n then .error .zeroDivisionError
          else .ok (oi, scoreVec3F R st.nList q w) :=
        fun oi w => by
          have := v3NormalizeRowF_spec (R := R) (st := stF) (by rw [en]; exact hi.posN) q oi w
          rw [en] at this
          exact this
      by_cases hd : ∃ n ∈ st.nList, (q.length : ℤ) + 3 = n
      · by_cases hl : l = []
        · subst hl
          rw [if_neg (by simp)]
          rfl
        · rw [if_pos ⟨by simpa using hl, hd⟩, mapM_error (e := .zeroDivisionError)]
          · obtain ⟨p, hp⟩ := List.exists_mem_of_ne_nil l hl
            exact ⟨_, List.mem_map_of_mem hp, by rw [hrow, if_pos hd]⟩
          · intro a ha
            obtain ⟨p, _, rfl⟩ := List.mem_map.1 ha
            left
            rw [hrow, if_pos hd]
      · rw [if_neg (fun h => hd h.2), List.mapM_map,
          mapM_ok (g := fun i : ℕ => (i, scoreVec3F R st.nList q (st.wordAt i)))]
        · simp only [pure, Except.pure, List.map_map]
          rfl
        · intro p _
          simp only [Function.comp_apply]
          rw [hrow, if_neg hd]

/-- The result of a V3 lookup, including exceptions and the order of ties. -/
theorem v3LookupF_exact {R : Rounding} (hi : V3Inv cf st) (hR : V3Rounded R st stF) (agg : List ℚ → S)
    {w q : List Char} (hw : w ≠ []) (hf : stF.fold cf w = q) (hq : Clean q) (topK : Option ℤ) :
    v3LookupF R agg cf stF (.str w) topK =
      if ∃ n ∈ st.nList, (q.length : ℤ) + 2 = n then .error .zeroDivisionError
      else if discovered3 st.nList q st.vocabulary = [] then .error .indexError
      else if ∃ n ∈ st.nList, (q.length : ℤ) + 3 = n then .error .zeroDivisionError
      else .ok ((best (fun v => agg (scoreVec3F R st.nList q v))
        (limit3 topK (discovered3 st.nList q st.vocabulary).length)
        (discovered3 st.nList q st.vocabulary)).map
          (fun v => (v, agg (scoreVec3F R st.nList q v), bigramSimF R true q v))) := by
  have ev := hR.eqs.2.1
  have hr : v3LookupF R agg cf stF (.str w) topK = (do
        let counter ← v3LookupScoresF R agg stF q
        let _ ← pyGet (mostCommon counter 1) 0
        let k := v3TopK topK counter.length
        let out ← (mostCommon counter (k * 2)).mapM (fun p => do
          let v ← pyGet stF.vocabulary p.1
          let s ← nmdF R (.str q) (.str v) (.int 2) true true
          return (v, p.2, s))
        return out.take k) := by
    simp only [v3LookupF]
    rw [if_neg (by simpa using hw), hf, if_neg (by rintro (h | h); exacts [hq.1 h, hq.2 h])]
  have hs := v3LookupScoresF_exact agg hi hR q
  by_cases c1 : ∃ n ∈ st.nList, (q.length : ℤ) + 2 = n
  · rw [if_pos c1] at hs ⊢
    rw [hr, hs]; rfl
  rw [if_neg c1] at hs ⊢
  obtain ⟨l, h1, h2, h3⟩ := hs
  rw [hr]
  rw [← h1]
  by_cases hl : l = []
  · subst hl
    rw [h3, if_neg (by simp)]
    rfl
  rw [if_neg (by simpa using hl)]
  by_cases c3 : ∃ n ∈ st.nList, (q.length : ℤ) + 3 = n
  · rw [if_pos c3, h3, if_pos ⟨hl, c3⟩]; rfl
  rw [if_neg c3, h3, if_neg (fun h => c3 h.2)]
  simp only [bind, Except.bind, mostCommon, List.length_map]
  rw [sortDesc_map (fun p : ℕ × List Char => (p.1, agg (scoreVec3F R st.nList q p.2))) Prod.snd]
  set L := sortDesc (fun p : ℕ × List Char => agg (scoreVec3F R st.nList q p.2)) l with hL
  have hLp : L.Perm l := sortDesc_perm _ _
  have hLne : L ≠ [] := fun h => hl (List.perm_nil.1 (h ▸ hLp.symm))
  have hget : ∃ x, pyGet (List.take 1 (L.map (fun p : ℕ × List Char =>
      (p.1, agg (scoreVec3F R st.nList q p.2))))) 0 = .ok x := by
    obtain ⟨p0, L', hL'⟩ := List.exists_cons_of_ne_nil hLne
    exact ⟨_, by rw [hL']; rfl⟩
  obtain ⟨x, hx⟩ := hget
  rw [hx]
  simp only
  have hk : v3TopK topK l.length = limit3 topK l.length := by
    unfold limit3 v3TopK
    cases topK with
    | none => rfl
    | some k =>
      by_cases h : 0 < k
      · simp only [if_pos h]; rw [if_neg (by omega)]
      · simp only [if_neg h]; rw [if_pos (by omega)]
  rw [hk, ← List.map_take, List.mapM_map,
    mapM_ok (g := fun p : ℕ × List Char =>
      (p.2, agg (scoreVec3F R st.nList q p.2), bigramSimF R true q p.2))]
  · simp only [pure, Except.pure]
    rw [← List.map_take, List.take_take, Nat.min_eq_left (by omega), best_eq,
      sortDesc_map Prod.snd (fun v => agg (scoreVec3F R st.nList q v)) l, ← List.map_take,
      List.map_map]
    rfl
  · intro p hp
    have hpl : p ∈ l := hLp.subset (List.mem_of_mem_take hp)
    have hv := h2 p hpl
    have hcl : Clean p.2 := (hi.words _ (List.mem_of_getElem? hv)).1
    simp only [Function.comp_apply, ev, pyGet_ok' hv, bigramSimF_ok hq hcl, pure, Except.pure]

/-- A call that does not reach the search. -/
theorem v3LookupF_other {agg : List ℚ → S} {st st' : V3}
    (hci : st.caseInsensitive = st'.caseInsensitive) {word : PyVal} (topK topK' : Option ℤ)
    (h : ∀ w, word = .str w → w ≠ [] → ¬ Clean (st.fold cf w)) :
    ∃ e, v3LookupF R agg cf st word topK = .error e ∧
      v3LookupF R agg cf st' word topK' = .error e := by
  have hfold : ∀ w, st'.fold cf w = st.fold cf w := by intro w; unfold V3.fold; rw [hci]
  unfold v3LookupF
  cases word with
  | int i => exact ⟨_, rfl, rfl⟩
  | other => exact ⟨_, rfl, rfl⟩
  | str w =>
    simp only [hfold]
    by_cases hw : w.length = 0
    · rw [if_pos hw, if_pos hw]; exact ⟨_, rfl, rfl⟩
    rw [if_neg hw, if_neg hw]
    have := h w rfl (by simpa using hw)
    have hc : '\x02' ∈ st.fold cf w ∨ '\x03' ∈ st.fold cf w := by
      by_contra hc
      rw [not_or] at hc
      exact this hc
    rw [if_pos hc, if_pos hc]
    exact ⟨_, rfl, rfl⟩

end Fp
end Verif
