import Verif.Index.V3Model
import Verif.Index.V3Spec
import Verif.Index.Lookup

/-!
# Lemmas about `ApproxWordListV3`

Helper lemmas only.
-/

namespace Verif

open GramSpec IndexSpec

theorem pySliceZ_nat {α : Type} (w : List α) (i : ℕ) {n : ℤ} (hn : 0 ≤ n) :
    pySliceZ w i (i + n) = pySlice w i (i + n.toNat) := by
  unfold pySliceZ
  rw [if_neg (by omega)]
  congr 1
  omega

theorem v3QueryGrams_eq {q : List Char} {n : ℤ} (hn : 0 < n) :
    v3QueryGrams q n = grams n.toNat q := by
  unfold v3QueryGrams grams
  have h : (numGrams q.length n).toNat = count n.toNat q := by
    rw [count_eq]
    unfold numGrams
    split <;> omega
  rw [h]
  apply List.map_congr_left
  intro i _
  rw [pySliceZ_nat _ _ hn.le]
  simp [pySlice, gramAt, pad_eq]

theorem v3AddGrams_eq (w : List Char) (n : ℤ) : v3AddGrams w n = getNGrams w n := by
  unfold v3AddGrams
  split
  · rename_i h
    rw [getNGrams_eq_grams h, ← v3QueryGrams_eq (by omega)]
    rfl
  · rename_i h
    rw [getNGrams_one (by omega)]

theorem posEntry_dedup (ns : List ℤ) (g w : List Char) (i : ℕ) :
    posEntry ns.dedup g w i = posEntry ns g w i := by
  unfold posEntry
  simp only [List.mem_dedup]

/-- The invariant relating the attributes to the list of stored words. -/
structure V3Inv (cf : List Char → List Char) (st : V3) : Prop where
  posN : ∀ n ∈ st.nList, 0 < n
  nodupW : st.vocabulary.Nodup
  indices : st.vocabIndices = st.vocabulary.zipIdx
  positions : ∀ g, (Dict.get? st.ngramIndices g).getD [] = posEntries st.nList st.vocabulary g
  words : ∀ w ∈ st.vocabulary, Clean w ∧ w ≠ [] ∧ st.fold cf w = w

/-- The state reached by a successful insertion of a new word. -/
def V3.inserted (st : V3) (w : List Char) : V3 :=
  ({ st with
    vocabIndices := st.vocabIndices ++ [(w, st.vocabulary.length)]
    vocabulary := st.vocabulary ++ [w] } : V3).addGrams w st.vocabulary.length

theorem V3.ngramIndices_inserted (st : V3) (w : List Char) :
    (st.inserted w).ngramIndices = (gramItems st.nList.dedup w).foldl
      (fun d it => Dict.appendTo d it.1 (st.vocabulary.length, it.2)) st.ngramIndices := by
  unfold V3.inserted V3.addGrams gramItems
  rw [List.foldl_flatMap]
  simp only [v3AddGrams_eq, addLocations_eq]

theorem V3Inv.inserted {cf : List Char → List Char} {st : V3} (hi : V3Inv cf st) {w : List Char}
    (hc : Clean w) (hw : w ≠ []) (hf : st.fold cf w = w) (hn : w ∉ st.vocabulary) :
    V3Inv cf (st.inserted w) := by
  refine ⟨hi.posN, ?_, ?_, ?_, ?_⟩
  · change (st.vocabulary ++ [w]).Nodup
    rw [List.nodup_append]
    refine ⟨hi.nodupW, by simp, ?_⟩
    intro a ha b hb
    rw [List.mem_singleton] at hb
    rintro rfl
    exact hn (hb ▸ ha)
  · change st.vocabIndices ++ [(w, st.vocabulary.length)] = (st.vocabulary ++ [w]).zipIdx
    simp [hi.indices, List.zipIdx_append]
  · intro g
    change _ = posEntries st.nList (st.vocabulary ++ [w]) g
    rw [V3.ngramIndices_inserted, getD_foldl_appendTo, hi.positions,
      filter_gramItems (List.nodup_dedup _) (fun n h => hi.posN n (List.mem_dedup.1 h)),
      posEntries_append, ← posEntry_dedup]
    unfold posEntry
    split <;> simp
  · intro v hv
    change v ∈ st.vocabulary ++ [w] at hv
    rw [List.mem_append, List.mem_singleton] at hv
    rcases hv with hv | rfl
    · exact hi.words v hv
    · exact ⟨hc, hw, hf⟩

theorem V3.fold_fold {cf : List Char → List Char} (hcf : ∀ w, cf (cf w) = cf w) (st : V3)
    (w : List Char) : st.fold cf (st.fold cf w) = st.fold cf w := by
  unfold V3.fold; split <;> simp [hcf]

/-- Complete description of `add_word`. -/
theorem V3.addWord_cases {cf : List Char → List Char} (hcf : ∀ w, cf (cf w) = cf w) {st : V3}
    (hi : V3Inv cf st) (v : PyVal) :
    st.addWord cf v =
      match v with
      | .str w =>
        if w = [] then (st, .error .valueError)
        else if st.fold cf w ∈ st.vocabulary then (st, .ok ())
        else if ¬ ('\x02' ∉ st.fold cf w ∧ '\x03' ∉ st.fold cf w) then (st, .error .assertionError)
        else if st.fold cf w = [] then (st, .error .valueError)
        else (st.inserted (st.fold cf w), .ok ())
      | _ => (st, .error .typeError) := by
  cases v with
  | int i => rfl
  | other => rfl
  | str w =>
    simp only [V3.addWord]
    by_cases h0 : w = []
    · simp [h0]
    have h0' : ¬ (w.length = 0) := by simpa using h0
    rw [if_neg h0', if_neg h0]
    have hhas : Dict.has st.vocabIndices (st.fold cf w) = decide (st.fold cf w ∈ st.vocabulary) := by
      rw [Bool.eq_iff_iff, Dict.has_iff, hi.indices, keys_zipIdx, decide_eq_true_iff]
    rw [hhas]
    by_cases h1 : st.fold cf w ∈ st.vocabulary
    · simp [h1]
    rw [if_neg (by simpa using h1), if_neg h1]
    by_cases h2 : '\x02' ∈ st.fold cf w ∨ '\x03' ∈ st.fold cf w
    · rw [if_pos h2, if_pos]
      rintro ⟨ha, hb⟩
      rcases h2 with h2 | h2
      · exact ha h2
      · exact hb h2
    rw [if_neg h2, if_neg (by rw [not_or] at h2; simpa using h2)]
    by_cases h3 : st.fold cf w = []
    · rw [if_pos h3]
      simp [V3.resolve, h3]
    · rw [if_neg h3]
      have hk : st.fold cf w ∉ Dict.keys st.vocabIndices := by
        rw [hi.indices, keys_zipIdx]; exact h1
      have hr : st.resolve cf (st.fold cf w) true = (({ st with
          vocabIndices := st.vocabIndices ++ [(st.fold cf w, st.vocabulary.length)]
          vocabulary := st.vocabulary ++ [st.fold cf w] } : V3),
          .ok (some st.vocabulary.length)) := by
        unfold V3.resolve
        rw [if_neg (by simpa using h3)]
        simp only [V3.fold_fold hcf]
        rw [Dict.get?_eq_none.2 hk]
        simp only [set_eq_append hk]
        simp [hi.indices]
      rw [hr]
      rfl

/-- The state after a list of `add_word` calls (exceptions caught by the caller). -/
def V3.addAll (cf : List Char → List Char) (st : V3) (args : List PyVal) : V3 :=
  args.foldl (fun st v => (st.addWord cf v).1) st

/-- A string argument. -/
def PyVal.str? : PyVal → Option (List Char)
  | .str w => some w
  | _ => none

theorem V3.addAll_spec {cf : List Char → List Char} (hcf : ∀ w, cf (cf w) = cf w) {n : NArg}
    {cs : Bool} {st₀ : V3} (h0 : V3.new n cs = .ok st₀) (hn : ∀ n ∈ st₀.nList, 0 < n)
    (args : List PyVal) :
    V3Inv cf (st₀.addAll cf args) ∧ (st₀.addAll cf args).nList = st₀.nList ∧
      (st₀.addAll cf args).caseInsensitive = (!cs) ∧
      (st₀.addAll cf args).vocabulary =
        stored3 (fun w => if (!cs) = true then cf w else w) (args.map PyVal.str?) := by
  have hinit : st₀.caseInsensitive = (!cs) ∧ st₀.vocabulary = [] ∧ st₀.vocabIndices = [] ∧
      st₀.ngramIndices = [] := by
    unfold V3.new at h0
    cases n <;> simp only [Except.ok.injEq, reduceCtorEq] at h0 <;> subst h0 <;> simp
  obtain ⟨e1, e2, e3, e4⟩ := hinit
  induction args using List.reverseRecOn with
  | nil =>
    refine ⟨⟨hn, ?_, ?_, ?_, ?_⟩, rfl, e1, ?_⟩
    · simp [V3.addAll, e2]
    · simp [V3.addAll, e2, e3]
    · simp [V3.addAll, e2, e4, posEntries]
    · simp [V3.addAll, e2]
    · simp [V3.addAll, e2, stored3]
  | append_singleton args v ih =>
    obtain ⟨hi, h1, h2, h3⟩ := ih
    have hs : st₀.addAll cf (args ++ [v]) = ((st₀.addAll cf args).addWord cf v).1 := by
      simp [V3.addAll]
    have hst : stored3 (fun w => if (!cs) = true then cf w else w) ((args ++ [v]).map PyVal.str?) =
        match (match PyVal.str? v with
          | some w => if w ≠ [] ∧ (if (!cs) = true then cf w else w) ≠ [] ∧
              stx ∉ (if (!cs) = true then cf w else w) ∧ etx ∉ (if (!cs) = true then cf w else w)
              then some (if (!cs) = true then cf w else w) else none
          | none => none) with
        | some x => if x ∈ (st₀.addAll cf args).vocabulary then (st₀.addAll cf args).vocabulary
            else (st₀.addAll cf args).vocabulary ++ [x]
        | none => (st₀.addAll cf args).vocabulary := by
      rw [h3]
      unfold stored3
      rw [List.map_append, List.filterMap_append, List.foldl_append]
      cases v with
      | str w =>
        simp only [PyVal.str?, List.map_cons, List.map_nil, List.filterMap_cons,
          List.filterMap_nil]
        generalize (if (!cs) = true then cf w else w) = x
        by_cases hx : w ≠ [] ∧ x ≠ [] ∧ stx ∉ x ∧ etx ∉ x
        · simp only [if_pos hx]; rfl
        · simp only [if_neg hx]; rfl
      | int i => rfl
      | other => rfl
    rw [hs, hst, V3.addWord_cases hcf hi]
    generalize hS : st₀.addAll cf args = S at *
    cases v with
    | int i => exact ⟨hi, h1, h2, rfl⟩
    | other => exact ⟨hi, h1, h2, rfl⟩
    | str w =>
      have hf : S.fold cf w = if (!cs) = true then cf w else w := by
        unfold V3.fold; rw [h2]
      simp only [PyVal.str?]
      rw [← hf]
      by_cases c1 : w = []
      · rw [if_pos c1, if_neg (fun h => h.1 c1)]
        exact ⟨hi, h1, h2, rfl⟩
      rw [if_neg c1]
      by_cases c2 : S.fold cf w ∈ S.vocabulary
      · obtain ⟨c, hne, -⟩ := hi.words _ c2
        rw [if_pos c2, if_pos ⟨c1, hne, c.1, c.2⟩]
        exact ⟨hi, h1, h2, by simp only [if_pos c2]⟩
      rw [if_neg c2]
      by_cases c3 : '\x02' ∉ S.fold cf w ∧ '\x03' ∉ S.fold cf w
      · rw [if_neg (not_not.2 c3)]
        by_cases c4 : S.fold cf w = []
        · rw [if_pos c4, if_neg (fun h => h.2.1 c4)]
          exact ⟨hi, h1, h2, rfl⟩
        · rw [if_neg c4, if_pos ⟨c1, c4, c3.1, c3.2⟩]
          refine ⟨hi.inserted ⟨c3.1, c3.2⟩ c4 (V3.fold_fold hcf S w) c2, h1, h2, ?_⟩
          simp only [if_neg c2]
          rfl
      · rw [if_pos c3, if_neg (fun h => c3 h.2.2)]
        exact ⟨hi, h1, h2, rfl⟩

/-! ### The scores -/

variable {cf : List Char → List Char} {st : V3}

/-- Events of the matching loop. -/
def V3.events (st : V3) (q : List Char) : List Event :=
  st.nList.zipIdx.flatMap (fun nk =>
    (Dict.group (locatedOf (v3QueryGrams q nk.1))).flatMap (fun gl =>
      ((Dict.get? st.ngramIndices gl.1).getD []).map (fun e =>
        (e.1, nk.2, max (gl.2.length : ℚ) e.2.length - emd gl.2 e.2))))

theorem V3.matches_ok (q : List Char) (h : ∀ n ∈ st.nList, (v3QueryGrams q n).length ≠ 1) :
    st.matches q = .ok (accum st.nList.length [] (st.events q)) := by
  unfold V3.matches V3.events accum
  apply foldlM_flatMap_ok
  rintro ⟨n, k⟩ hnk ms
  have hk : st.nList[k]? = some n := List.mem_zipIdx_iff_getElem?.1 hnk
  have hn := h n (List.mem_of_getElem? hk)
  simp only [queryLocations_eq, if_neg hn, bind, Except.bind, pure, Except.pure]
  congr 1
  apply foldl_flatMap_eq
  rintro ⟨g, l⟩ _ ms
  rw [List.foldl_map]

theorem V3.matches_error (q : List Char) (h : ∃ n ∈ st.nList, (v3QueryGrams q n).length = 1) :
    st.matches q = .error .zeroDivisionError := by
  obtain ⟨n, hn, h1⟩ := h
  obtain ⟨k, hk, rfl⟩ := List.getElem_of_mem hn
  unfold V3.matches
  apply foldlM_error
  · refine ⟨(st.nList[k], k), List.mem_zipIdx_iff_getElem?.2 (by simp [hk]), ?_⟩
    intro b
    simp only [queryLocations_eq, if_pos h1, bind, Except.bind]
  · rintro ⟨m, j⟩ _ b
    simp only [queryLocations_eq]
    by_cases hm : (v3QueryGrams q m).length = 1
    · left; simp only [if_pos hm, bind, Except.bind]
    · right; simp only [if_neg hm, bind, Except.bind, pure, Except.pure]; exact ⟨_, rfl⟩

theorem v3_length_of_mem {n : ℤ} (hn : 0 < n) {q g : List Char} (hg : g ∈ grams n.toNat q) :
    (g.length : ℤ) = n := by
  obtain ⟨i, hi, rfl⟩ := List.mem_map.1 hg
  rw [List.mem_range, count] at hi
  simp only [gramAt, List.length_take, List.length_drop]
  omega

theorem V3.mem_events (hi : V3Inv cf st) (q : List Char) (oi : ℕ) :
    oi ∈ (st.events q).map Prod.fst ↔
      ∃ w, st.vocabulary[oi]? = some w ∧ Matches3 st.nList q w := by
  constructor
  · intro h
    rw [V3.events, List.map_flatMap] at h
    obtain ⟨⟨n, k⟩, hnk, h⟩ := List.mem_flatMap.1 h
    rw [List.map_flatMap] at h
    obtain ⟨⟨g, l⟩, hgl, h⟩ := List.mem_flatMap.1 h
    rw [List.map_map] at h
    obtain ⟨e, he, rfl⟩ := List.mem_map.1 h
    have hk : st.nList[k]? = some n := List.mem_zipIdx_iff_getElem?.1 hnk
    have hn : 0 < n := hi.posN n (List.mem_of_getElem? hk)
    obtain ⟨hg, rfl⟩ := mem_group_locatedOf.1 hgl
    simp only at hg
    rw [v3QueryGrams_eq hn] at hg
    have hg1 := v3_length_of_mem hn hg
    rw [hi.positions] at he
    obtain ⟨w, hw, hp⟩ := mem_posEntries.1 he
    obtain ⟨_, hgw, _⟩ := posEntry_some hp
    simp only at hgw
    refine ⟨w, hw, n, List.mem_of_getElem? hk, g, hg, ?_⟩
    rw [← getNGrams_eq_gramsOf, ← hg1]; exact hgw
  · rintro ⟨w, hw, n, hn, g, hgq, hgw⟩
    have hn0 : 0 < n := hi.posN n hn
    obtain ⟨k, hk, rfl⟩ := List.getElem_of_mem hn
    rw [← getNGrams_eq_gramsOf] at hgw
    have hlen := v3_length_of_mem hn0 hgq
    rw [← v3QueryGrams_eq hn0] at hgq
    have hpe : posEntry st.nList g w oi =
        some (oi, Dict.locs (locatedOf (getNGrams w g.length)) g) := by
      unfold posEntry
      rw [if_pos]
      rw [hlen]; exact ⟨hn, hgw⟩
    have hmem : (oi, Dict.locs (locatedOf (getNGrams w g.length)) g) ∈
        (Dict.get? st.ngramIndices g).getD [] := by
      rw [hi.positions]
      exact mem_posEntries.2 ⟨w, hw, hpe⟩
    have hz : (st.nList[k], k) ∈ st.nList.zipIdx :=
      List.mem_zipIdx_iff_getElem?.2 (by simp [hk])
    rw [V3.events, List.map_flatMap]
    refine List.mem_flatMap.2 ⟨_, hz, ?_⟩
    rw [List.map_flatMap]
    refine List.mem_flatMap.2 ⟨_, mem_group_locatedOf.2 ⟨hgq, rfl⟩, ?_⟩
    rw [List.map_map]
    exact List.mem_map.2 ⟨_, hmem, rfl⟩

theorem V3.evTotal_events (hi : V3Inv cf st) (q : List Char) {oi : ℕ} {w : List Char}
    (hw : st.vocabulary[oi]? = some w) :
    evTotal st.nList.length (st.events q) oi = st.nList.map (fun n => overlap3 n q w) := by
  apply List.ext_getElem
  · simp [evTotal]
  intro k h1 h2
  have hk : k < st.nList.length := by simpa [evTotal] using h1
  simp only [evTotal, List.getElem_map, List.getElem_range, V3.events]
  rw [sum_map_flatMap]
  have key : ∀ nk ∈ st.nList.zipIdx,
      (((Dict.group (locatedOf (v3QueryGrams q nk.1))).flatMap (fun gl =>
        ((Dict.get? st.ngramIndices gl.1).getD []).map (fun e =>
          ((e.1, nk.2, max (gl.2.length : ℚ) e.2.length - emd gl.2 e.2) : Event)))).map
        (fun e => if e.1 = oi ∧ e.2.1 = k then e.2.2 else 0)).sum =
      if nk.2 = k then overlap3 nk.1 q w else 0 := by
    rintro ⟨n, k'⟩ hnk
    have hk' : st.nList[k']? = some n := List.mem_zipIdx_iff_getElem?.1 hnk
    have hnm : n ∈ st.nList := List.mem_of_getElem? hk'
    have hn : 0 < n := hi.posN n hnm
    simp only
    rw [sum_map_flatMap]
    have inner : ∀ gl ∈ Dict.group (locatedOf (v3QueryGrams q n)),
        ((((Dict.get? st.ngramIndices gl.1).getD []).map (fun e =>
          ((e.1, k', max (gl.2.length : ℚ) e.2.length - emd gl.2 e.2) : Event))).map
          (fun e => if e.1 = oi ∧ e.2.1 = k then e.2.2 else 0)).sum =
        if gl.1 ∈ (gramsOf n w).toFinset then
          (if k' = k then (max ((grams n.toNat q).count gl.1 : ℚ) ((gramsOf n w).count gl.1)
      - emd (posOf (grams n.toNat q) gl.1) (posOf (gramsOf n w) gl.1)) else 0) else 0 := by
      rintro ⟨g, l⟩ hgl
      obtain ⟨hg, rfl⟩ := mem_group_locatedOf.1 hgl
      rw [v3QueryGrams_eq hn] at hg ⊢
      have hg1 := v3_length_of_mem hn hg
      simp only
      rw [List.map_map, hi.positions]
      rw [sum_posEntries hw]
      · unfold posEntry
        rw [hg1, getNGrams_eq_gramsOf w n, posOf_eq, posOf_eq]
        by_cases hgw : g ∈ gramsOf n w
        · rw [if_pos ⟨hnm, hgw⟩, if_pos (List.mem_toFinset.2 hgw)]
          by_cases hkk : k' = k
          · simp [hkk, length_locs_locatedOf]
          · simp [hkk]
        · rw [if_neg (fun h => hgw h.2), if_neg (fun h => hgw (List.mem_toFinset.1 h))]
      · intro e he
        simp [he]
    rw [List.map_congr_left inner, Dict.group_eq_map, List.map_map]
    simp only [Function.comp_def]
    rw [sum_keys_eq (Dict.nodup_keys_group _) (A := (grams n.toNat q).toFinset) (by
      intro g; rw [keys_group_eq, List.mem_toFinset, v3QueryGrams_eq hn])
      (fun g => if g ∈ (gramsOf n w).toFinset then
          (if k' = k then (max ((grams n.toNat q).count g : ℚ) ((gramsOf n w).count g)
      - emd (posOf (grams n.toNat q) g) (posOf (gramsOf n w) g)) else 0) else 0)]
    rw [Finset.sum_ite_mem]
    by_cases hkk : k' = k
    · simp only [hkk, if_true, overlap3]
    · simp [hkk]
  rw [List.map_congr_left key]
  exact sum_zipIdx_single st.nList (fun n => overlap3 n q w) k hk

/-- The matched words with their unnormalised scores, in some order. -/
theorem V3.matches_spec (hi : V3Inv cf st) (q : List Char)
    (h : ∀ n ∈ st.nList, (v3QueryGrams q n).length ≠ 1) :
    ∃ l : List (ℕ × List Char),
      st.matches q = .ok (l.map (fun p => (p.1, st.nList.map (fun n => overlap3 n q p.2)))) ∧
      (l.map Prod.snd).Perm (st.vocabulary.filter (fun w => Matches3 st.nList q w)) ∧
      ∀ p ∈ l, st.vocabulary[p.1]? = some p.2 := by
  obtain ⟨ms, hms⟩ : ∃ ms, ms = accum st.nList.length [] (st.events q) := ⟨_, rfl⟩
  have hnd : (Dict.keys ms).Nodup := hms ▸ nodup_keys_accum _ _
  have hmem : ∀ oi v, (oi, v) ∈ ms ↔ ∃ w, st.vocabulary[oi]? = some w ∧
      Matches3 st.nList q w ∧ v = st.nList.map (fun n => overlap3 n q w) := by
    intro oi v
    rw [Dict.mem_iff_get? hnd, hms, get?_accum]
    constructor
    · intro h
      split at h
      · rename_i hm
        obtain ⟨w, hw, he⟩ := (V3.mem_events hi q oi).1 hm
        injection h with h
        exact ⟨w, hw, he, by rw [← h, V3.evTotal_events hi q hw]⟩
      · cases h
    · rintro ⟨w, hw, he, rfl⟩
      rw [if_pos ((V3.mem_events hi q oi).2 ⟨w, hw, he⟩), V3.evTotal_events hi q hw]
  have hword : ∀ oi ∈ Dict.keys ms, ∃ w, st.vocabulary[oi]? = some w ∧ Matches3 st.nList q w := by
    intro oi ho
    obtain ⟨⟨_, v⟩, hp, rfl⟩ := List.mem_map.1 ho
    obtain ⟨w, h1, h2, -⟩ := (hmem _ v).1 hp
    exact ⟨w, h1, h2⟩
  refine ⟨ms.map (fun p => (p.1, (st.vocabulary[p.1]?).getD [])), ?_, ?_, ?_⟩
  · rw [V3.matches_ok q h, ← hms, List.map_map]
    congr 1
    conv_lhs => rw [← List.map_id ms]
    apply List.map_congr_left
    rintro ⟨oi, v⟩ hp
    obtain ⟨w, hw, -, rfl⟩ := (hmem oi v).1 hp
    simp [hw]
  · rw [List.perm_ext_iff_of_nodup]
    · intro w
      rw [List.map_map, List.mem_map, List.mem_filter, decide_eq_true_eq]
      constructor
      · rintro ⟨⟨oi, v⟩, hp, rfl⟩
        obtain ⟨w, hw, hm, -⟩ := (hmem oi v).1 hp
        simp only [Function.comp_apply, hw, Option.getD_some]
        exact ⟨List.mem_of_getElem? hw, hm⟩
      · rintro ⟨hw, hm⟩
        obtain ⟨oi, ho, rfl⟩ := List.getElem_of_mem hw
        have hg : st.vocabulary[oi]? = some st.vocabulary[oi] := List.getElem?_eq_getElem ho
        exact ⟨(oi, _), (hmem oi _).2 ⟨_, hg, hm, rfl⟩, by simp [hg]⟩
    · rw [List.map_map]
      have : ms.map (Prod.snd ∘ fun p : ℕ × List ℚ => (p.1, (st.vocabulary[p.1]?).getD [])) =
          (Dict.keys ms).map (fun oi => (st.vocabulary[oi]?).getD []) := by
        rw [Dict.keys, List.map_map]; rfl
      rw [this]
      refine List.Nodup.map_on ?_ hnd
      intro i hi' j hj hij
      obtain ⟨w, hw, -⟩ := hword i hi'
      obtain ⟨v, hv, -⟩ := hword j hj
      rw [hw, hv] at hij
      simp only [Option.getD_some] at hij
      subst hij
      obtain ⟨a, ha⟩ := List.getElem?_eq_some_iff.1 hw
      obtain ⟨b, hb⟩ := List.getElem?_eq_some_iff.1 hv
      exact (hi.nodupW.getElem_inj_iff).1 (ha.trans hb.symm)
    · exact hi.nodupW.filter _
  · rintro _ hp
    obtain ⟨⟨oi, v⟩, hp', rfl⟩ := List.mem_map.1 hp
    obtain ⟨w, hw, -⟩ := (hmem oi v).1 hp'
    simp [hw]

theorem V3.normalizeRow_spec (hi : V3Inv cf st) (q : List Char) (oi : ℕ) (w : List Char) :
    st.normalizeRow q (oi, st.nList.map (fun n => overlap3 n q w)) =
      if ∃ n ∈ st.nList, (q.length : ℤ) + 3 = n then .error .zeroDivisionError
      else .ok (oi, scoreVec3 st.nList q w) := by
  have hden : ∀ n ∈ st.nList, numGrams q.length n = (q.length : ℤ) + 3 - n := by
    intro n hn
    have := hi.posN n hn
    unfold numGrams
    split <;> omega
  unfold V3.normalizeRow
  simp only [bind, Except.bind, pure, Except.pure]
  have step : ∀ (l : List (ℤ × ℕ)), (∀ nk ∈ l, st.nList[nk.2]? = some nk.1) →
      l.mapM (fun nk => do
        let x ← pyGet (st.nList.map (fun n => overlap3 n q w)) nk.2
        let den : ℤ := numGrams q.length nk.1
        if den = 0 then throw PyErr.zeroDivisionError else return x / (den : ℚ)) =
      if ∃ n ∈ l.map Prod.fst, (q.length : ℤ) + 3 = n then .error PyErr.zeroDivisionError
      else .ok (l.map (fun nk => score3 nk.1 q w)) := by
    intro l hl
    induction l with
    | nil => simp [pure, Except.pure]
    | cons p l ih =>
      obtain ⟨n, k⟩ := p
      have hk := hl (n, k) (by simp)
      simp only at hk
      have hx : (st.nList.map (fun n => overlap3 n q w))[k]? = some (overlap3 n q w) := by
        rw [List.getElem?_map, hk]; rfl
      rw [List.mapM_cons, ih (fun nk h => hl nk (by simp [h]))]
      simp only [pyGet_ok' hx, bind, Except.bind, hden n (List.mem_of_getElem? hk)]
      by_cases hd : (q.length : ℤ) + 3 = n
      · have hex : ∃ m ∈ ((n, k) :: l).map Prod.fst, (q.length : ℤ) + 3 = m := ⟨n, by simp, hd⟩
        rw [if_pos (c := (q.length : ℤ) + 3 - n = 0) (by omega), if_pos hex]; rfl
      · rw [if_neg (c := (q.length : ℤ) + 3 - n = 0) (by omega)]
        by_cases hr : ∃ n ∈ l.map Prod.fst, (q.length : ℤ) + 3 = n
        · have hex : ∃ m ∈ ((n, k) :: l).map Prod.fst, (q.length : ℤ) + 3 = m := by
            obtain ⟨m, hm, h0⟩ := hr
            exact ⟨m, by rw [List.map_cons]; exact List.mem_cons_of_mem _ hm, h0⟩
          rw [if_pos hr, if_pos hex]; rfl
        · have hex : ¬ ∃ m ∈ ((n, k) :: l).map Prod.fst, (q.length : ℤ) + 3 = m := by
            rintro ⟨m, hm, h0⟩
            rw [List.map_cons, List.mem_cons] at hm
            rcases hm with rfl | hm
            · exact hd h0
            · exact hr ⟨m, hm, h0⟩
          rw [if_neg hr, if_neg hex]
          simp [pure, Except.pure, score3]
  have := step st.nList.zipIdx (fun nk h => List.mem_zipIdx_iff_getElem?.1 h)
  simp only [bind, Except.bind, pure, Except.pure] at this
  rw [this]
  have e1 : st.nList.zipIdx.map Prod.fst = st.nList := by simp
  rw [e1]
  by_cases hr : ∃ n ∈ st.nList, (q.length : ℤ) + 3 = n
  · rw [if_pos hr, if_pos hr]
  · rw [if_neg hr, if_neg hr]
    have e2 : st.nList.zipIdx.map (fun nk => score3 nk.1 q w) = scoreVec3 st.nList q w := by
      unfold scoreVec3
      conv_rhs => rw [← e1]
      rw [List.map_map]; rfl
    rw [e2]

end Verif
