import Verif.Index.IncrProps
import Verif.Index.MergeProps
import Verif.Index.V5bProps

/-!
# Properties C221 and C222: `ApproxWordListV5b` equals a full scan, ties included, and what follows
-/

namespace Verif

open GramSpec IndexSpec

variable {cf : List Char → List Char} {st : WL} {S : Type} [LinearOrder S]

theorem v5bEvents_fst (ho : st.Ordered) (q : List Char) (normalize : Bool) (possible : List ℕ) :
    firsts ((st.v5bEvents q normalize possible).map Prod.fst) =
      (firsts (st.metIdx q)).filter (fun i => i ∈ possible) := by
  rw [← firsts_filter]
  congr 1
  unfold WL.v5bEvents WL.metIdx
  rw [List.map_flatMap, List.filter_flatMap]
  conv_rhs => rw [← List.zipIdx_map_fst 0 st.nList, List.flatMap_map]
  apply List.flatMap_congr
  rintro ⟨n, k⟩ _
  simp only
  rw [List.map_flatMap, List.filter_flatMap, Dict.group_eq_map,
    List.flatMap_map, keys_group, map_fst_locatedOf, getNGrams_eq_gramsOf]
  apply List.flatMap_congr
  intro g _
  simp only
  rw [ho g, List.map_flatMap, List.zipIdx_map_fst]
  generalize posEntries st.nList st.wordList g = l
  induction l with
  | nil => rfl
  | cons e l ih =>
    rw [List.flatMap_cons, List.map_cons, ih]
    by_cases h : e.1 ∈ possible
    · simp [h]
    · simp [h]

/-- Leaving out elements that are below a bound which enough elements reach does not change the first
`k`. -/
theorem best_filter {α : Type} {key : α → S} {k : ℕ} {D : List α} {P : α → Bool} {t : S}
    (hlow : ∀ x ∈ D, P x = false → key x < t)
    (hmany : min k D.length ≤ (D.filter (fun x => t ≤ key x)).length) :
    best key k (D.filter P) = best key k D := by
  have e : (D.filter P).filter (fun x => t ≤ key x) = D.filter (fun x => t ≤ key x) := by
    rw [List.filter_filter]
    apply List.filter_congr
    intro x hx
    cases hP : P x with
    | true => simp
    | false => simp [hlow x hx hP]
  have key2 : ∀ D' : List α, min k D'.length ≤ (D'.filter (fun x => t ≤ key x)).length →
      best key k D' = best key k (D'.filter (fun x => t ≤ key x)) := by
    intro D' h
    rw [best_eq, best_eq, sortDesc_split key t D', List.take_append]
    by_cases hc : k ≤ (D'.filter (fun x => t ≤ key x)).length
    · rw [length_sortDesc, Nat.sub_eq_zero_of_le hc, List.take_zero, List.append_nil]
    · have hl := List.length_filter_le (fun x => decide (t ≤ key x)) D'
      have hD : D'.filter (fun x => t ≤ key x) = D' :=
        List.filter_sublist.eq_of_length (by omega)
      have hL : D'.filter (fun x => key x < t) = [] := by
        rw [List.filter_eq_nil_iff]
        intro x hx hlt
        rw [← hD, List.mem_filter] at hx
        simp only [decide_eq_true_eq] at hx hlt
        exact absurd hx.2 (not_le.2 hlt)
      rw [hL]
      simp [sortDesc]
  rw [key2 D hmany, key2 (D.filter P), e]
  rw [e]
  have := List.length_filter_le P D
  omega

/-- The result of a V5b lookup, including the order of ties. -/
theorem v5bLookup_exact (hi : WLInv cf st) (ho : st.Ordered) {agg : List ℚ → S}
    (hagg : MonotoneAgg agg) {w q : List Char} {k : ℤ} (hw : w ≠ []) (hk : 0 < k)
    (hf : st.fold cf w = q) (hq0 : q ≠ []) (hq : Clean q) (normalize : Bool) :
    st.v5bLookup agg cf (.str w) (.int k) normalize =
      .ok ((best (fun v => agg (scoreVec st.nList normalize q v)) k.toNat
        (discovered st.nList st.filterN q st.wordList)).map
          (fun v => (v, agg (scoreVec st.nList normalize q v)))) := by
  have hk' : 1 ≤ k.toNat := by omega
  obtain ⟨scored, hsc, hperm, ⟨possible, hord⟩, t, hlow, hmany⟩ :=
    v5bLookupSimilarity_perm hi hagg hq0 hk' normalize
  rw [keys_accum, v5bEvents_fst ho] at hord
  unfold WL.v5bLookup
  simp only [if_neg (show ¬ w.length = 0 by simpa using hw), if_neg (not_le.2 hk), hf]
  rw [if_neg (by simpa using hq0), if_neg (by rintro (h | h); exacts [hq.1 h, hq.2 h])]
  simp only [hsc, bind, Except.bind]
  generalize k.toNat = K at *
  have hmem : ∀ i, i ∈ scored.map Prod.fst ↔
      (st.wordAt i, i) ∈ st.unpruned agg q K normalize := by
    intro i
    constructor
    · intro h
      obtain ⟨p, hp, rfl⟩ := List.mem_map.1 h
      obtain ⟨⟨w, j⟩, hp', rfl⟩ := List.mem_map.1 (hperm.mem_iff.1 hp)
      have hw := (mem_eligible.1 (List.mem_of_mem_filter hp')).1
      simp only
      rw [wordAt_eq hw]; exact hp'
    · intro h
      exact List.mem_map.2 ⟨_, hperm.mem_iff.2 (List.mem_map.2 ⟨_, h, rfl⟩), rfl⟩
  have hdperm := discovered_perm st.nList st.filterN q hi.nodupW
  set L := scored.map Prod.fst with hLdef
  have hL1 : scored = L.map (fun i => (i, agg (scoreVec st.nList normalize q (st.wordAt i)))) := by
    rw [hLdef, List.map_map]
    conv_lhs => rw [← List.map_id scored]
    apply List.map_congr_left
    intro p hp
    obtain ⟨⟨w, j⟩, hp', rfl⟩ := List.mem_map.1 (hperm.mem_iff.1 hp)
    have hw := (mem_eligible.1 (List.mem_of_mem_filter hp')).1
    simp [wordAt_eq hw]
  have hL2 : ∀ i ∈ L, st.wordList[i]? = some (st.wordAt i) := fun i h =>
    (mem_eligible.1 (List.mem_of_mem_filter ((hmem i).1 h))).1
  have hL3 : L.map st.wordAt = (discovered st.nList st.filterN q st.wordList).filter
      (fun w => ¬ Outranked agg st.nList st.filterN normalize q st.wordList K w) := by
    rw [discovered_eq, ← firsts_metIdx hi, List.filter_filter, List.filter_map, hord]
    congr 1
    apply List.filter_congr
    intro i hi'
    have hw := mem_metIdx (mem_firsts.1 hi')
    have h1 : i ∈ possible ↔ i ∈ L := by
      rw [hord, List.mem_filter]; simp [hi']
    have h2 : i ∈ possible ↔
        ¬ Outranked agg st.nList st.filterN normalize q st.wordList K (st.wordAt i) ∧
          Eligible st.nList st.filterN q (st.wordAt i) := by
      rw [h1, hmem, WL.unpruned, List.mem_filter, mem_eligible]
      simp [hw, and_comm]
    simp only [Function.comp, h2, Bool.decide_and]
  clear_value L
  subst hL1
  have e1 : mostCommon (L.map (fun i => (i, agg (scoreVec st.nList normalize q (st.wordAt i))))) K =
      (best (fun i => agg (scoreVec st.nList normalize q (st.wordAt i))) K L).map
        (fun i => (i, agg (scoreVec st.nList normalize q (st.wordAt i)))) := by
    unfold mostCommon
    rw [sortDesc_map, ← List.map_take]; rfl
  rw [e1, mapM_ok (g := fun p : ℕ × S => (st.wordAt p.1, p.2)) _ (by
      intro p hp
      obtain ⟨i, hi', rfl⟩ := List.mem_map.1 hp
      rw [pyGet_ok' (hL2 i (mem_best hi'))]; rfl)]
  congr 1
  rw [← best_filter (P := fun w =>
    decide (¬ Outranked agg st.nList st.filterN normalize q st.wordList K w)) (t := t), ← hL3,
    best_map, List.map_map, List.map_map]
  · rfl
  · intro w hw hout
    have hw' := hdperm.mem_iff.1 hw
    rw [← eligible_map_fst] at hw'
    obtain ⟨p, hp, rfl⟩ := List.mem_map.1 hw'
    apply hlow p hp
    intro h
    have := (List.mem_filter.1 h).2
    rw [this] at hout
    cases hout
  · rw [(hdperm.filter _).length_eq, hdperm.length_eq, ← eligible_map_fst, List.length_map,
      List.filter_map, List.length_map]
    refine le_trans hmany ?_
    apply List.Sublist.length_le
    exact List.filter_sublist.filter _

/-- **C221.** A lookup in an `ApproxWordListV5b` returns exactly what a full scan without index, filter
tables and pruning returns: the `top_k` best eligible words by their scores, ties in the order in which
the query comes across them. Whatever the vocabulary, it does not raise. -/
theorem C221_v5b_full_scan (hcf : ∀ w, cf (cf w) = cf w) {st : WL} (hr : st.V5bReachable cf)
    {agg : List ℚ → S} (hagg : MonotoneAgg agg) {w : List Char} {k : ℤ} (hw : w ≠ []) (hk : 0 < k)
    (hq0 : st.fold cf w ≠ []) (hq : Clean (st.fold cf w)) (normalize : Bool) :
    st.v5bLookup agg cf (.str w) (.int k) normalize =
      .ok ((best (fun v => agg (scoreVec st.nList normalize (st.fold cf w) v)) k.toNat
        (discovered st.nList st.filterN (st.fold cf w) st.wordList)).map
          (fun v => (v, agg (scoreVec st.nList normalize (st.fold cf w) v)))) :=
  v5bLookup_exact ((hr.reachable hcf).inv hcf) ((hr.reachable hcf).ordered hcf) hagg hw hk rfl hq0 hq
    normalize

/-- Two words tie; "abcy" is met first because it shares an earlier n-gram of the query, although
"zbcd" was added before it. -/
example :
    let st := ({ demoB₀ with nList := [3] } : WL).v5bRun id
      [.str "zbcd".toList, .str "abcy".toList, .str "abcd".toList]
    st.V5bReachable id ∧
    discovered [3] 0 "abcd".toList st.wordList =
      ["abcy".toList, "abcd".toList, "zbcd".toList] ∧
    (st.v5bLookup mean1 id (.str "abcd".toList) (.int 3) false).map (List.map Prod.fst) =
      .ok ["abcd".toList, "abcy".toList, "zbcd".toList] :=
  ⟨⟨.int 3, some true, none, { demoB₀ with nList := [3] }, _, by decide +kernel, rfl⟩,
    by decide +kernel, by decide +kernel⟩

/-- A call that does not reach the search. -/
theorem v5bLookup_other {agg : List ℚ → S} {st st' : WL}
    (hci : st.caseInsensitive = st'.caseInsensitive) {word topK : PyVal} (normalize : Bool)
    (h : ∀ w k, word = .str w → topK = .int k → w ≠ [] → 0 < k → st.fold cf w ≠ [] →
      ¬ Clean (st.fold cf w)) :
    st.v5bLookup agg cf word topK normalize = st'.v5bLookup agg cf word topK normalize := by
  have hfold : ∀ w, st'.fold cf w = st.fold cf w := by intro w; unfold WL.fold; rw [hci]
  unfold WL.v5bLookup
  cases word with
  | int i => rfl
  | other => rfl
  | str w =>
    simp only
    by_cases hw : w.length = 0
    · rw [if_pos hw, if_pos hw]
    rw [if_neg hw, if_neg hw]
    cases topK with
    | str s => rfl
    | other => rfl
    | int k =>
      simp only [hfold]
      by_cases hk : k ≤ 0
      · rw [if_pos hk, if_pos hk]
      rw [if_neg hk, if_neg hk]
      by_cases hq0 : (st.fold cf w).length = 0
      · rw [if_pos hq0, if_pos hq0]
      rw [if_neg hq0, if_neg hq0]
      have := h w k rfl rfl (by simpa using hw) (by omega) (by simpa using hq0)
      have hc : '\x02' ∈ st.fold cf w ∨ '\x03' ∈ st.fold cf w := by
        by_contra hc
        rw [not_or] at hc
        exact this hc
      rw [if_pos hc, if_pos hc]

/-- **C221.** The answer depends only on the configuration and on the eligible words in the order in
which they were added, exceptions included. -/
theorem C221_v5b_only_eligible_words (hcf : ∀ w, cf (cf w) = cf w) {st st' : WL}
    (hr : st.V5bReachable cf) (hr' : st'.V5bReachable cf) (hn : st.nList = st'.nList)
    (hfn : st.filterN = st'.filterN) (hci : st.caseInsensitive = st'.caseInsensitive)
    {agg : List ℚ → S} (hagg : MonotoneAgg agg) (word topK : PyVal) (normalize : Bool)
    (h : ∀ w, word = .str w → eligibleWords st.nList st.filterN (st.fold cf w) st.wordList =
      eligibleWords st.nList st.filterN (st.fold cf w) st'.wordList) :
    st.v5bLookup agg cf word topK normalize = st'.v5bLookup agg cf word topK normalize := by
  by_cases hc : ∀ w k, word = .str w → topK = .int k → w ≠ [] → 0 < k → st.fold cf w ≠ [] →
      ¬ Clean (st.fold cf w)
  · exact v5bLookup_other hci normalize hc
  · simp only [not_forall, not_not] at hc
    obtain ⟨w, k, rfl, rfl, hw, hk, hq0, hq⟩ := hc
    have hfold : st'.fold cf w = st.fold cf w := by unfold WL.fold; rw [hci]
    rw [C221_v5b_full_scan hcf hr hagg hw hk hq0 hq,
      C221_v5b_full_scan hcf hr' hagg hw hk (by rwa [hfold]) (by rwa [hfold]), hfold, ← hn, ← hfn,
      discovered_congr (h w rfl)]

/-- Adding words to a list. -/
theorem v5bReachable_run {st : WL} (hr : st.V5bReachable cf) (vs : List PyVal) :
    (st.v5bRun cf vs).V5bReachable cf := by
  obtain ⟨n, cs, fn, st₀, vs₀, h0, rfl⟩ := hr
  exact ⟨n, cs, fn, st₀, vs₀ ++ vs, h0, by simp [WL.v5bRun]⟩

theorem v5bRun_config (hcf : ∀ w, cf (cf w) = cf w) {st : WL} (hr : st.V5bReachable cf)
    (vs : List PyVal) :
    (st.v5bRun cf vs).nList = st.nList ∧ (st.v5bRun cf vs).filterN = st.filterN ∧
    (st.v5bRun cf vs).caseInsensitive = st.caseInsensitive ∧
    ∃ new, (st.v5bRun cf vs).wordList = st.wordList ++ new ∧
      ∀ v ∈ new, ∃ u, PyVal.str u ∈ vs ∧ v = st.fold cf u := by
  induction vs using List.reverseRecOn with
  | nil => exact ⟨rfl, rfl, rfl, [], by simp [WL.v5bRun], by simp⟩
  | append_singleton vs v ih =>
    obtain ⟨i1, i2, i3, new, i4, i5⟩ := ih
    have hi := ((v5bReachable_run hr vs).reachable hcf).inv hcf
    have e : st.v5bRun cf (vs ++ [v]) = ((st.v5bRun cf vs).v5bAddWord cf v).1 := by
      simp [WL.v5bRun]
    have i5' : ∀ x ∈ new, ∃ u, PyVal.str u ∈ vs ++ [v] ∧ x = st.fold cf u := fun x hx => by
      obtain ⟨u, hu, hx⟩ := i5 x hx
      exact ⟨u, List.mem_append_left _ hu, hx⟩
    obtain ⟨c1, c2, c3⟩ := config_addWord hcf hi v
    rw [e, v5bAddWord_state hcf hi]
    refine ⟨c1.trans i1, c2.trans i2, c3.trans i3, ?_⟩
    rw [← v5bAddWord_state hcf hi, v5bAddWord_cases hi]
    cases v with
    | int i => exact ⟨new, i4, i5'⟩
    | other => exact ⟨new, i4, i5'⟩
    | str u =>
      simp only
      split
      · exact ⟨new, i4, i5'⟩
      split
      · exact ⟨new, i4, i5'⟩
      · refine ⟨new ++ [st.fold cf u], ?_, ?_⟩
        · rw [wordList_inserted, i4, List.append_assoc]
          unfold WL.fold; rw [i3]
        · intro x hx
          rcases List.mem_append.1 hx with hx | hx
          · exact i5' x hx
          · exact ⟨u, by simp, by simpa using hx⟩

/-- **C221.** Adding words none of which shares an n-gram with the query does not change the answer. -/
theorem C221_v5b_unrelated_words (hcf : ∀ w, cf (cf w) = cf w) {st : WL} (hr : st.V5bReachable cf)
    {agg : List ℚ → S} (hagg : MonotoneAgg agg) (word topK : PyVal) (normalize : Bool)
    (vs : List PyVal)
    (h : ∀ w, word = .str w → ∀ v, PyVal.str v ∈ vs →
      ¬ Eligible st.nList st.filterN (st.fold cf w) (st.fold cf v)) :
    (st.v5bRun cf vs).v5bLookup agg cf word topK normalize =
      st.v5bLookup agg cf word topK normalize := by
  obtain ⟨c1, c2, c3, new, c4, c5⟩ := v5bRun_config hcf hr vs
  symm
  refine C221_v5b_only_eligible_words hcf hr (v5bReachable_run hr vs) c1.symm c2.symm c3.symm hagg
    word topK normalize (fun w hw => ?_)
  rw [c4, eligibleWords, eligibleWords, List.filter_append,
    (List.filter_eq_nil_iff (l := new)).2, List.append_nil]
  intro v hv he
  obtain ⟨u, hu, rfl⟩ := c5 v hv
  exact h w hw u hu (by simpa using he)

example : ¬ Eligible demoB.nList demoB.filterN "bananas".toList "xyz".toList ∧
    Eligible demoB.nList demoB.filterN "bananas".toList "bandana".toList ∧
    (demoB.v5bRun id [.str "xyz".toList]).wordList ≠ demoB.wordList := by
  decide +kernel

/-- **C222.** Asking for fewer results returns the beginning of the longer list. -/
theorem C222_v5b_prefix (hcf : ∀ w, cf (cf w) = cf w) {st : WL} (hr : st.V5bReachable cf)
    {agg : List ℚ → S} (hagg : MonotoneAgg agg) {w : List Char} (hw : w ≠ []) {k k' : ℤ}
    (hk : 0 < k) (hkk : k ≤ k') (normalize : Bool) :
    ∃ res, st.v5bLookup agg cf (.str w) (.int k') normalize = .ok res ∧
      st.v5bLookup agg cf (.str w) (.int k) normalize = .ok (res.take k.toNat) := by
  by_cases hc : st.fold cf w = [] ∨ ¬ Clean (st.fold cf w)
  · obtain ⟨res, h1, h2, -⟩ := C84_v5b_lookup hcf hr hagg hw hk normalize
    obtain ⟨res', h1', h2', -⟩ := C84_v5b_lookup hcf hr hagg hw (hk.trans_le hkk) normalize
    refine ⟨res', h1', ?_⟩
    rw [h1, h2 hc, h2' hc, List.take_nil]
  · rw [not_or, not_not] at hc
    refine ⟨_, C221_v5b_full_scan hcf hr hagg hw (hk.trans_le hkk) hc.1 hc.2 normalize, ?_⟩
    rw [C221_v5b_full_scan hcf hr hagg hw hk hc.1 hc.2, ← List.map_take, best_eq, best_eq,
      List.take_take]
    congr 4
    omega

/-- **C222.** A new word changes nothing but its own appearance: the other words keep their scores
and their order, with ties or without. -/
theorem C222_v5b_added_word (hcf : ∀ w, cf (cf w) = cf w) {st : WL} (hr : st.V5bReachable cf)
    {agg : List ℚ → S} (hagg : MonotoneAgg agg) {v w : List Char}
    (hnew : st.fold cf v ∉ st.v5bVocabulary) (hw : w ≠ []) {k : ℤ} (hk : 0 < k)
    (normalize : Bool) :
    ∃ res, (st.v5bAddWord cf (.str v)).1.v5bLookup agg cf (.str w) (.int (k + 1)) normalize =
        .ok res ∧
      st.v5bLookup agg cf (.str w) (.int k) normalize =
        .ok ((res.filter (fun r => r.1 ≠ st.fold cf v)).take k.toNat) := by
  obtain ⟨c1, c2, c3, new, c4, c5⟩ := v5bRun_config hcf hr [.str v]
  have hr' := v5bReachable_run hr [.str v]
  have e : st.v5bRun cf [.str v] = (st.v5bAddWord cf (.str v)).1 := rfl
  rw [e] at c1 c2 c3 c4 hr'
  generalize (st.v5bAddWord cf (.str v)).1 = st' at *
  have hf : st'.fold cf w = st.fold cf w := by unfold WL.fold; rw [c3]
  have hnew' : st.fold cf v ∉ st.wordList := fun hc =>
    hnew ((List.perm_insertionSort _ _).mem_iff.2 hc)
  by_cases hc : st.fold cf w = [] ∨ ¬ Clean (st.fold cf w)
  · obtain ⟨res, h1, h2, -⟩ := C84_v5b_lookup hcf hr hagg hw hk normalize
    obtain ⟨res', h1', h2', -⟩ := C84_v5b_lookup hcf hr' hagg hw (show 0 < k + 1 by omega) normalize
    refine ⟨res', h1', ?_⟩
    rw [h1, h2 hc, h2' (by rwa [hf]), List.filter_nil, List.take_nil]
  rw [not_or, not_not] at hc
  refine ⟨_, C221_v5b_full_scan hcf hr' hagg hw (by omega) (by rw [hf]; exact hc.1)
    (by rw [hf]; exact hc.2) normalize, ?_⟩
  rw [C221_v5b_full_scan hcf hr hagg hw hk hc.1 hc.2, hf, c1, c2, List.filter_map, ← List.map_take]
  congr 2
  have hfil : st.wordList = st'.wordList.filter (fun u => u ≠ st.fold cf v) := by
    rw [c4, List.filter_append, List.filter_eq_self.2, (List.filter_eq_nil_iff (l := new)).2,
      List.append_nil]
    · intro x hx hne
      obtain ⟨u, hu, rfl⟩ := c5 x hx
      have hu : u = v := by simpa using hu
      subst hu
      simp at hne
    · intro u hu
      simp only [ne_eq, decide_not, Bool.not_eq_true', decide_eq_false_iff_not]
      rintro rfl
      exact hnew' hu
  rw [show (k + 1).toNat = k.toNat + 1 by omega]
  conv_lhs => rw [hfil, discovered_filter, best_eq, sortDesc_filter]
  rw [take_filter_of_one, best_eq]
  · rfl
  · rw [((sortDesc_perm _ _).filter _).length_eq]
    have hn := nodup_discovered st.nList st.filterN (st.fold cf w) st'.wordList
    have e : (discovered st.nList st.filterN (st.fold cf w) st'.wordList).filter
        (fun x => !decide (x ≠ st.fold cf v)) =
        (discovered st.nList st.filterN (st.fold cf w) st'.wordList).filter
          (fun x => x == st.fold cf v) := by
      apply List.filter_congr
      intro x _
      simp [beq_eq_decide]
    rw [e, ← List.countP_eq_length_filter]
    exact List.nodup_iff_count_le_one.1 hn _

example : "bandanas".toList ∉ demoB.v5bVocabulary ∧
    ((demoB.v5bAddWord id (.str "bandanas".toList)).1.v5bLookup mean1 id (.str "bananas".toList)
      (.int 2) false).map (List.map Prod.fst) = .ok ["bandanas".toList, "banana".toList] ∧
    (demoB.v5bLookup mean1 id (.str "bananas".toList) (.int 1) false).map (List.map Prod.fst) =
      .ok ["banana".toList] := by
  decide +kernel

/-- **C222.** If the words of a list are divided over two lists, the scores of a lookup are the merge
of those of the parts: the best of both. -/
theorem C222_v5b_merge (hcf : ∀ w, cf (cf w) = cf w) {u a b : WL} (hu : u.V5bReachable cf)
    (ha : a.V5bReachable cf) (hb : b.V5bReachable cf) (hp : Parts u a b) {agg : List ℚ → S}
    (hagg : MonotoneAgg agg) {w : List Char} (hw : w ≠ []) {k : ℤ} (hk : 0 < k) (normalize : Bool) :
    ∃ ru ra rb, u.v5bLookup agg cf (.str w) (.int k) normalize = .ok ru ∧
      a.v5bLookup agg cf (.str w) (.int k) normalize = .ok ra ∧
      b.v5bLookup agg cf (.str w) (.int k) normalize = .ok rb ∧
      ru.map Prod.snd = best id k.toNat ((ra ++ rb).map Prod.snd) := by
  have fa : a.fold cf w = u.fold cf w := by unfold WL.fold; rw [hp.caseA]
  have fb : b.fold cf w = u.fold cf w := by unfold WL.fold; rw [hp.caseB]
  by_cases hc : u.fold cf w = [] ∨ ¬ Clean (u.fold cf w)
  · obtain ⟨ru, u1, u2, -⟩ := C84_v5b_lookup hcf hu hagg hw hk normalize
    obtain ⟨ra, a1, a2, -⟩ := C84_v5b_lookup hcf ha hagg hw hk normalize
    obtain ⟨rb, b1, b2, -⟩ := C84_v5b_lookup hcf hb hagg hw hk normalize
    refine ⟨ru, ra, rb, u1, a1, b1, ?_⟩
    rw [u2 hc, a2 (by rwa [fa]), b2 (by rwa [fb])]
    simp [best]
  rw [not_or, not_not] at hc
  refine ⟨_, _, _, C221_v5b_full_scan hcf hu hagg hw hk hc.1 hc.2 normalize,
    C221_v5b_full_scan hcf ha hagg hw hk (by rw [fa]; exact hc.1) (by rw [fa]; exact hc.2) normalize,
    C221_v5b_full_scan hcf hb hagg hw hk (by rw [fb]; exact hc.1) (by rw [fb]; exact hc.2) normalize,
    ?_⟩
  have val : ∀ s : WL, s.V5bReachable cf →
      ((best (fun v => agg (scoreVec s.nList normalize (s.fold cf w) v)) k.toNat
        (discovered s.nList s.filterN (s.fold cf w) s.wordList)).map
          (fun v => (v, agg (scoreVec s.nList normalize (s.fold cf w) v)))).map Prod.snd =
      best id k.toNat ((eligibleWords s.nList s.filterN (s.fold cf w) s.wordList).map
        (fun v => agg (scoreVec s.nList normalize (s.fold cf w) v))) := by
    intro s hs
    rw [List.map_map, ← best_perm (((discovered_perm s.nList s.filterN (s.fold cf w)
      ((hs.reachable hcf).inv hcf).nodupW)).map _), best_map]
    rfl
  rw [List.map_append, val u hu, val a ha, val b hb, best_merge, fa, fb, hp.sizesA, hp.sizesB,
    hp.filterA, hp.filterB, ← List.map_append]
  apply best_perm
  refine List.Perm.map _ ?_
  have := eligibleWords_perm (ns := u.nList) (f := u.filterN) (q := u.fold cf w) hp.wordList
  unfold eligibleWords at this ⊢
  rwa [List.filter_append] at this

example : Parts demoB (demoB₀.v5bRun id [.str "a".toList, .str "bandana".toList])
    (demoB₀.v5bRun id [.str "banana".toList]) :=
  ⟨by decide +kernel, by decide +kernel, by decide +kernel, by decide +kernel, by decide +kernel,
    by decide +kernel, by decide +kernel⟩

theorem sortDesc_sorted {α : Type} {key : α → S} {l : List α}
    (h : l.Pairwise (fun a b => key b ≤ key a)) : sortDesc key l = l := by
  apply eq_of_sorted_stable (sortDesc_pairwise key _) h
  intro c
  exact sortDesc_stable _ _ _

/-- **C223.** Whenever `ApproxWordListV5.lookup` returns (see C30), the first `top_k` of its up to
`2 top_k` results are the results of `ApproxWordListV5b.lookup`: the same words with the same scores in
the same order, ties included. -/
theorem C223_v5_and_v5b_agree [Ring S] [IsStrictOrderedRing S] (hcf : ∀ w, cf (cf w) = cf w)
    {st : WL} (hr : st.V5bReachable cf) {agg : List ℚ → S} (hagg : MonotoneAgg agg)
    {w : List Char} {k : ℤ} {normalize : Bool} {r5 : List (List Char × S)}
    (h0 : st.fold cf w ≠ [])
    (h5 : st.lookupV5 agg cf (.str w) (.int k) true normalize = .ok r5) :
    st.v5bLookup agg cf (.str w) (.int k) normalize = .ok (r5.take k.toNat) := by
  have hr6 := hr.reachable hcf
  have hchk : w ≠ [] ∧ 0 < k ∧ Clean (st.fold cf w) := by
    cases hc : st.checkLookup cf (.str w) (.int k) with
    | error e => unfold WL.lookupV5 at h5; rw [hc] at h5; cases h5
    | ok p =>
      obtain ⟨w', k', e1, e2, hw, hk, hq, -, -⟩ := checkLookup_inv (q := p.1) (K := p.2) hc
      injection e1 with e1
      injection e2 with e2
      subst e1 e2
      exact ⟨hw, hk, hq⟩
  obtain ⟨hw, hk, hq⟩ := hchk
  have hfail : ¬ LookupFails agg st.nList st.filterN normalize st.wordList k.toNat
      (st.fold cf w) := by
    intro hf
    rw [(lookupV5_spec (hr6.inv hcf) hagg hw hk rfl hq true normalize).1 hf] at h5
    cases h5
  obtain ⟨_, _, _, _, t, hlow, hmany⟩ := lookupSimilarity_exact (hr6.inv hcf) (hr6.ordered hcf) hagg
    (st.fold cf w) (show 1 ≤ k.toNat by omega) normalize hfail
  rw [lookupV5_exact (hr6.inv hcf) (hr6.ordered hcf) hagg hw hk rfl hq true normalize hfail] at h5
  injection h5 with h5
  rw [C221_v5b_full_scan hcf hr hagg hw hk h0 hq, ← h5]
  congr 1
  set q := st.fold cf w
  set f : List Char → S := fun v => agg (scoreVec st.nList normalize q v) with hf
  set D := discovered st.nList st.filterN q st.wordList
  simp only [if_true]
  rw [sortDesc_map, ← List.map_take]
  congr 1
  have hs : ∀ l : List (List Char), ∀ m, (best f m l).Pairwise (fun a b => f b ≤ f a) := fun l m =>
    (sortDesc_pairwise f l).sublist (List.take_sublist _ _)
  rw [sortDesc_sorted (key := fun a => f a) (hs _ _), best_eq (k := 2 * k.toNat), List.take_take,
    Nat.min_eq_left (by omega), ← best_eq, best_filter (t := t)]
  · intro x hx hP
    apply hlow x hx
    simpa using hP
  · exact hmany

example : (demoB.lookupV5 mean1 id (.str "bananas".toList) (.int 1) true true).map
      (List.map Prod.fst) = .ok ["banana".toList, "bandana".toList] ∧
    (demoB.v5bLookup mean1 id (.str "bananas".toList) (.int 1) true).map (List.map Prod.fst) =
      .ok ["banana".toList] := by
  decide +kernel

end Verif
