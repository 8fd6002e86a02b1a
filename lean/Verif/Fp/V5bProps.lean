import Verif.Fp.V5bLookup
import Verif.Fp.IndexProps

/-!
# Properties C226 and C227: `ApproxWordListV5b` with floats
-/

namespace Verif
namespace Fp

open GramSpec IndexSpec

variable {R : Rounding} {cf : List Char → List Char} {S : Type} [LinearOrder S]

theorem v5bRunF_rounded {R : FOps} {st stF : WL} (h : Rounded R st stF) (vs : List PyVal) :
    Rounded R (st.v5bRun cf vs) (v5bRunF R cf stF vs) := by
  induction vs using List.reverseRecOn with
  | nil => exact h
  | append_singleton vs v ih =>
    unfold v5bRunF WL.v5bRun at ih ⊢
    rw [List.foldl_append, List.foldl_append]
    exact (v5bAddWordF_rounded ih v).1

/-- **C226.** Rounding does not change which words are stored, which calls raise, nor anything else that
`add_word` does but the stored positions. -/
theorem C226_float_v5b_state {n : NArg} {cs : Option Bool} {fn : Option PyVal} {st₀ : WL}
    (h0 : WL.v5bNew n cs fn = .ok st₀) (vs : List PyVal) (v : PyVal) :
    (v5bRunF R cf st₀ vs).wordList = (st₀.v5bRun cf vs).wordList ∧
    (v5bRunF R cf st₀ vs).ngramCounts = (st₀.v5bRun cf vs).ngramCounts ∧
    (v5bRunF R cf st₀ vs).ngramFilter = (st₀.v5bRun cf vs).ngramFilter ∧
    (v5bAddWordF R cf (v5bRunF R cf st₀ vs) v).2 = ((st₀.v5bRun cf vs).v5bAddWord cf v).2 := by
  have hR₀ : Rounded R st₀ st₀ := by
    have hp : st₀.ngramPositions = [] := by
      unfold WL.v5bNew at h0
      cases hm : v5bNList n with
      | error e => rw [hm] at h0; cases h0
      | ok l =>
        rw [hm] at h0
        cases cs with
        | none => cases h0
        | some cs =>
          cases hf : v5bFilterN fn with
          | error e => rw [hf] at h0; cases h0
          | ok f =>
            rw [hf] at h0
            injection h0 with h0
            subst h0
            rfl
    exact ⟨st₀.ngramPositions, rfl, fun g => by rw [hp]; rfl⟩
  have hR := v5bRunF_rounded (cf := cf) hR₀ vs
  refine ⟨hR.eqs.2.1, ?_, ?_, (v5bAddWordF_rounded hR v).2⟩
  · obtain ⟨Q, hQ, _⟩ := hR
    rw [hQ]
  · obtain ⟨Q, hQ, _⟩ := hR
    rw [hQ]

/-- **C226.** With floats, too, a lookup in an `ApproxWordListV5b` returns exactly what a full scan
without index, filter tables and pruning returns: the `top_k` best eligible words by their computed
scores, ties in the order in which the query comes across them, normalised or not. Rounding never makes
the pruning lose a word, and the lookup does not raise. -/
theorem C226_float_v5b_full_scan (hcf : ∀ w, cf (cf w) = cf w) (hD : ExactDouble R) {st : WL}
    (hr : V5bReachableF R cf st) {agg : List ℚ → S} (hagg : MonotoneAggF R st.nList.length agg)
    {w : List Char} {k : ℤ} (hw : w ≠ []) (hk : 0 < k)
    (hq0 : st.fold cf w ≠ []) (hq : Clean (st.fold cf w))
    (hl : ∀ v ∈ st.wordList, (st.fold cf w).length + v.length + 2 ≤ 2 ^ 53) (normalize : Bool) :
    v5bLookupF R agg cf st (.str w) (.int k) normalize =
      .ok ((best (fun v => agg (sumScoreVecF R st.nList normalize (st.fold cf w) v)) k.toNat
        (discovered st.nList st.filterN (st.fold cf w) st.wordList)).map
          (fun v => (v, agg (sumScoreVecF R st.nList normalize (st.fold cf w) v)))) := by
  obtain ⟨se, hse, hR⟩ := hr.rounded
  obtain ⟨e1, e2, e3, _⟩ := hR.eqs
  have hr6 := hse.reachable hcf
  rw [e1] at hagg
  rw [e2] at hl
  rw [v5bLookupF_exact (hr6.inv hcf) (hr6.ordered hcf) hR hD hagg hw hk rfl hq0 hq normalize
    (fun v hv n _ => (gramsTotal_le n _ v).trans (hl v hv)), e1, e2, e3]

/-- A query that is empty after case folding or contains a reserved character finds nothing. -/
theorem v5bLookupF_empty {R : FOps} {agg : List ℚ → S} {st : WL} {w : List Char} {k : ℤ}
    (hw : w ≠ []) (hk : 0 < k) (h : st.fold cf w = [] ∨ ¬ Clean (st.fold cf w)) (normalize : Bool) :
    v5bLookupF R agg cf st (.str w) (.int k) normalize = .ok [] := by
  unfold v5bLookupF
  simp only [if_neg (show ¬ w.length = 0 by simpa using hw), if_neg (not_le.2 hk)]
  by_cases h0 : st.fold cf w = []
  · rw [if_pos (by simp [h0])]
  · rw [if_neg (by simpa using h0), if_pos]
    rcases h with h | h
    · exact absurd h h0
    · by_contra hc
      rw [not_or] at hc
      exact h hc

/-- Four words in binary64. -/
def demoBF : WL := v5bRunF binary64 id demoB₀
  [.str "banana".toList, .str "bandana".toList, .str "ananas".toList, .str "xyz".toList]

theorem demoBF_reachable : V5bReachableF binary64 id demoBF :=
  ⟨.iter [3, 2, 3], some true, none, demoB₀, _, by decide +kernel, rfl⟩

example : V5bReachableF binary64 id demoBF ∧ ExactDouble binary64 ∧
    MonotoneAggF binary64 demoBF.nList.length (mean1F binary64) ∧
    (∀ v ∈ demoBF.wordList, "bananas".toList.length + v.length + 2 ≤ 2 ^ 53) ∧
    v5bLookupF binary64 (mean1F binary64) id demoBF (.str "bananas".toList) (.int 3) true =
      .ok [("banana".toList, 427780101967953 / 562949953421312),
        ("ananas".toList, 427780101967953 / 562949953421312),
        ("bandana".toList, 576353523740867 / 1125899906842624)] :=
  ⟨demoBF_reachable, binary64_double, mean1F_monotone le_top, by decide +kernel, by decide +kernel⟩

/-- A call that does not reach the search. -/
theorem v5bLookupF_other {R : FOps} {agg : List ℚ → S} {st st' : WL}
    (hci : st.caseInsensitive = st'.caseInsensitive) {word topK : PyVal} (normalize : Bool)
    (h : ∀ w k, word = .str w → topK = .int k → w ≠ [] → 0 < k → st.fold cf w ≠ [] →
      ¬ Clean (st.fold cf w)) :
    v5bLookupF R agg cf st word topK normalize = v5bLookupF R agg cf st' word topK normalize := by
  have hfold : ∀ w, st'.fold cf w = st.fold cf w := by intro w; unfold WL.fold; rw [hci]
  cases word with
  | int i => rfl
  | other => rfl
  | str w =>
    by_cases hw : w = []
    · subst hw; rfl
    cases topK with
    | str s => unfold v5bLookupF; rfl
    | other => unfold v5bLookupF; rfl
    | int k =>
      by_cases hk : 0 < k
      · have hc : st.fold cf w = [] ∨ ¬ Clean (st.fold cf w) := by
          by_cases hq0 : st.fold cf w = []
          · exact .inl hq0
          · exact .inr (h w k rfl rfl hw hk hq0)
        rw [v5bLookupF_empty hw hk hc, v5bLookupF_empty hw hk (by rwa [hfold])]
      · unfold v5bLookupF
        simp only [if_pos (not_lt.1 hk)]

/-- **C226.** The answer depends only on the configuration and on the eligible words in the order in
which they were added, exceptions included. -/
theorem C226_float_v5b_only_eligible_words (hcf : ∀ w, cf (cf w) = cf w) (hD : ExactDouble R)
    {st st' : WL} (hr : V5bReachableF R cf st) (hr' : V5bReachableF R cf st')
    (hn : st.nList = st'.nList) (hfn : st.filterN = st'.filterN)
    (hci : st.caseInsensitive = st'.caseInsensitive) {agg : List ℚ → S}
    (hagg : MonotoneAggF R st.nList.length agg) (word topK : PyVal) (normalize : Bool)
    (hl : ∀ w, word = .str w → ∀ v ∈ st.wordList ++ st'.wordList,
      (st.fold cf w).length + v.length + 2 ≤ 2 ^ 53)
    (h : ∀ w, word = .str w → eligibleWords st.nList st.filterN (st.fold cf w) st.wordList =
      eligibleWords st.nList st.filterN (st.fold cf w) st'.wordList) :
    v5bLookupF R agg cf st word topK normalize = v5bLookupF R agg cf st' word topK normalize := by
  by_cases hc : ∀ w k, word = .str w → topK = .int k → w ≠ [] → 0 < k → st.fold cf w ≠ [] →
      ¬ Clean (st.fold cf w)
  · exact v5bLookupF_other hci normalize hc
  · simp only [not_forall, not_not] at hc
    obtain ⟨w, k, rfl, rfl, hw, hk, hq0, hq⟩ := hc
    have hfold : st'.fold cf w = st.fold cf w := by unfold WL.fold; rw [hci]
    rw [C226_float_v5b_full_scan hcf hD hr hagg hw hk hq0 hq
        (fun v hv => hl w rfl v (List.mem_append_left _ hv)),
      C226_float_v5b_full_scan hcf hD hr' (by rwa [← hn]) hw hk (by rwa [hfold]) (by rwa [hfold])
        (fun v hv => by rw [hfold]; exact hl w rfl v (List.mem_append_right _ hv)),
      hfold, ← hn, ← hfn, discovered_congr (h w rfl)]

theorem v5bReachableF_run {R : FOps} {st : WL} (hr : V5bReachableF R cf st) (vs : List PyVal) :
    V5bReachableF R cf (v5bRunF R cf st vs) := by
  obtain ⟨n, cs, fn, st₀, vs₀, h0, rfl⟩ := hr
  exact ⟨n, cs, fn, st₀, vs₀ ++ vs, h0, by simp [v5bRunF]⟩

theorem v5bRunF_config {R : FOps} (hcf : ∀ w, cf (cf w) = cf w) {st : WL}
    (hr : V5bReachableF R cf st) (vs : List PyVal) :
    (v5bRunF R cf st vs).nList = st.nList ∧ (v5bRunF R cf st vs).filterN = st.filterN ∧
    (v5bRunF R cf st vs).caseInsensitive = st.caseInsensitive ∧
    ∃ new, (v5bRunF R cf st vs).wordList = st.wordList ++ new ∧
      ∀ v ∈ new, ∃ u, PyVal.str u ∈ vs ∧ v = st.fold cf u := by
  obtain ⟨se, hse, hR⟩ := hr.rounded
  have hR' := v5bRunF_rounded (cf := cf) hR vs
  obtain ⟨c1, c2, c3, new, c4, c5⟩ := v5bRun_config hcf hse vs
  obtain ⟨e1, e2, e3, e4⟩ : st.nList = se.nList ∧ st.wordList = se.wordList ∧
    st.filterN = se.filterN ∧ st.caseInsensitive = se.caseInsensitive := by
    obtain ⟨Q, rfl, _⟩ := hR; exact ⟨rfl, rfl, rfl, rfl⟩
  obtain ⟨f1, f2, f3, f4⟩ : (v5bRunF R cf st vs).nList = (se.v5bRun cf vs).nList ∧
    (v5bRunF R cf st vs).wordList = (se.v5bRun cf vs).wordList ∧
    (v5bRunF R cf st vs).filterN = (se.v5bRun cf vs).filterN ∧
    (v5bRunF R cf st vs).caseInsensitive = (se.v5bRun cf vs).caseInsensitive := by
    obtain ⟨Q, hQ, _⟩ := hR'; rw [hQ]; exact ⟨rfl, rfl, rfl, rfl⟩
  have hfold : ∀ u, st.fold cf u = se.fold cf u := by intro u; unfold WL.fold; rw [e4]
  refine ⟨by rw [f1, c1, e1], by rw [f3, c2, e3], by rw [f4, c3, e4], new, by rw [f2, c4, e2], ?_⟩
  intro v hv
  obtain ⟨u, hu, h⟩ := c5 v hv
  exact ⟨u, hu, by rw [hfold]; exact h⟩

/-- **C226.** Adding words none of which shares an n-gram with the query does not change the answer. -/
theorem C226_float_v5b_unrelated_words (hcf : ∀ w, cf (cf w) = cf w) (hD : ExactDouble R) {st : WL}
    (hr : V5bReachableF R cf st) {agg : List ℚ → S} (hagg : MonotoneAggF R st.nList.length agg)
    (word topK : PyVal) (normalize : Bool) (vs : List PyVal)
    (hl : ∀ w, word = .str w → ∀ v ∈ (v5bRunF R cf st vs).wordList,
      (st.fold cf w).length + v.length + 2 ≤ 2 ^ 53)
    (h : ∀ w, word = .str w → ∀ v, PyVal.str v ∈ vs →
      ¬ Eligible st.nList st.filterN (st.fold cf w) (st.fold cf v)) :
    v5bLookupF R agg cf (v5bRunF R cf st vs) word topK normalize =
      v5bLookupF R agg cf st word topK normalize := by
  obtain ⟨c1, c2, c3, new, c4, c5⟩ := v5bRunF_config hcf hr vs
  symm
  refine C226_float_v5b_only_eligible_words hcf hD hr (v5bReachableF_run hr vs) c1.symm c2.symm
    c3.symm hagg word topK normalize (fun w hw v hv => ?_) (fun w hw => ?_)
  · rcases List.mem_append.1 hv with hv | hv
    · exact hl w hw v (by rw [c4]; exact List.mem_append_left _ hv)
    · exact hl w hw v hv
  · rw [c4, eligibleWords, eligibleWords, List.filter_append,
      (List.filter_eq_nil_iff (l := new)).2, List.append_nil]
    intro v hv he
    obtain ⟨u, hu, rfl⟩ := c5 v hv
    exact h w hw u hu (by simpa using he)

example : ¬ Eligible demoBF.nList demoBF.filterN "bananas".toList "xy".toList ∧
    Eligible demoBF.nList demoBF.filterN "bananas".toList "bandana".toList ∧
    (v5bRunF binary64 id demoBF [.str "xy".toList]).wordList ≠ demoBF.wordList := by
  decide +kernel

/-- **C227.** Asking for fewer results returns the beginning of the longer list. -/
theorem C227_float_v5b_prefix (hcf : ∀ w, cf (cf w) = cf w) (hD : ExactDouble R) {st : WL}
    (hr : V5bReachableF R cf st) {agg : List ℚ → S} (hagg : MonotoneAggF R st.nList.length agg)
    {w : List Char} (hw : w ≠ []) {k k' : ℤ} (hk : 0 < k) (hkk : k ≤ k')
    (hl : ∀ v ∈ st.wordList, (st.fold cf w).length + v.length + 2 ≤ 2 ^ 53) (normalize : Bool) :
    ∃ res, v5bLookupF R agg cf st (.str w) (.int k') normalize = .ok res ∧
      v5bLookupF R agg cf st (.str w) (.int k) normalize = .ok (res.take k.toNat) := by
  by_cases hc : st.fold cf w = [] ∨ ¬ Clean (st.fold cf w)
  · refine ⟨[], v5bLookupF_empty hw (hk.trans_le hkk) hc normalize, ?_⟩
    rw [v5bLookupF_empty hw hk hc, List.take_nil]
  · rw [not_or, not_not] at hc
    refine ⟨_, C226_float_v5b_full_scan hcf hD hr hagg hw (hk.trans_le hkk) hc.1 hc.2 hl normalize, ?_⟩
    rw [C226_float_v5b_full_scan hcf hD hr hagg hw hk hc.1 hc.2 hl, ← List.map_take, best_eq, best_eq,
      List.take_take]
    congr 4
    omega

/-- **C227.** A new word changes nothing but its own appearance: the other words keep their computed
scores and their order, with ties or without. -/
theorem C227_float_v5b_added_word (hcf : ∀ w, cf (cf w) = cf w) (hD : ExactDouble R) {st : WL}
    (hr : V5bReachableF R cf st) {agg : List ℚ → S} (hagg : MonotoneAggF R st.nList.length agg)
    {v w : List Char} (hnew : st.fold cf v ∉ st.wordList) (hw : w ≠ []) {k : ℤ} (hk : 0 < k)
    (hl : ∀ u ∈ st.fold cf v :: st.wordList, (st.fold cf w).length + u.length + 2 ≤ 2 ^ 53)
    (normalize : Bool) :
    ∃ res, v5bLookupF R agg cf (v5bAddWordF R cf st (.str v)).1 (.str w) (.int (k + 1)) normalize =
        .ok res ∧
      v5bLookupF R agg cf st (.str w) (.int k) normalize =
        .ok ((res.filter (fun r => r.1 ≠ st.fold cf v)).take k.toNat) := by
  obtain ⟨c1, c2, c3, new, c4, c5⟩ := v5bRunF_config hcf hr [.str v]
  have hr' := v5bReachableF_run hr [.str v]
  have e : v5bRunF R cf st [.str v] = (v5bAddWordF R cf st (.str v)).1 := rfl
  rw [e] at c1 c2 c3 c4 hr'
  generalize (v5bAddWordF R cf st (.str v)).1 = st' at *
  have hf : st'.fold cf w = st.fold cf w := by unfold WL.fold; rw [c3]
  by_cases hc : st.fold cf w = [] ∨ ¬ Clean (st.fold cf w)
  · refine ⟨[], v5bLookupF_empty hw (by omega) (by rwa [hf]) normalize, ?_⟩
    rw [v5bLookupF_empty hw hk hc, List.filter_nil, List.take_nil]
  rw [not_or, not_not] at hc
  have hl' : ∀ u ∈ st'.wordList, (st'.fold cf w).length + u.length + 2 ≤ 2 ^ 53 := by
    intro u hu
    rw [hf]
    rw [c4] at hu
    rcases List.mem_append.1 hu with hu | hu
    · exact hl u (by simp [hu])
    · obtain ⟨x, hx, rfl⟩ := c5 u hu
      have hx : x = v := by simpa using hx
      subst hx
      exact hl _ (by simp)
  refine ⟨_, C226_float_v5b_full_scan hcf hD hr' (by rwa [c1]) hw (by omega) (by rw [hf]; exact hc.1)
    (by rw [hf]; exact hc.2) hl' normalize, ?_⟩
  rw [C226_float_v5b_full_scan hcf hD hr hagg hw hk hc.1 hc.2 (fun u hu => hl u (by simp [hu])),
    hf, c1, c2, List.filter_map, ← List.map_take]
  congr 2
  have hfil : st.wordList = st'.wordList.filter (fun u => u ≠ st.fold cf v) := by
    rw [c4, List.filter_append, List.filter_eq_self.2, (List.filter_eq_nil_iff (l := new)).2,
      List.append_nil]
    · intro x hx hne
      obtain ⟨u, hu, rfl⟩ := c5 x hx
      have hu : u = v := by simpa using hu
      subst hu
      simp at hne
    · intro u hu
      simp only [ne_eq, decide_not, Bool.not_eq_true', decide_eq_false_iff_not]
      rintro rfl
      exact hnew hu
  rw [show (k + 1).toNat = k.toNat + 1 by omega]
  conv_lhs => rw [hfil, discovered_filter, best_eq, sortDesc_filter]
  rw [take_filter_of_one, best_eq]
  · rfl
  · rw [((sortDesc_perm _ _).filter _).length_eq]
    have hn := nodup_discovered st.nList st.filterN (st.fold cf w) st'.wordList
    have e : (discovered st.nList st.filterN (st.fold cf w) st'.wordList).filter
        (fun x => !decide (x ≠ st.fold cf v)) =
        (discovered st.nList st.filterN (st.fold cf w) st'.wordList).filter
          (fun x => x == st.fold cf v) := by
      apply List.filter_congr
      intro x _
      simp [beq_eq_decide]
    rw [e, ← List.countP_eq_length_filter]
    exact List.nodup_iff_count_le_one.1 hn _

example : "bandanas".toList ∉ demoBF.wordList ∧
    (v5bLookupF binary64 (mean1F binary64) id
      (v5bAddWordF binary64 id demoBF (.str "bandanas".toList)).1 (.str "bananas".toList)
      (.int 3) false).map (List.map Prod.fst) =
        .ok ["bandanas".toList, "banana".toList, "ananas".toList] ∧
    (v5bLookupF binary64 (mean1F binary64) id demoBF (.str "bananas".toList) (.int 2) false).map
      (List.map Prod.fst) = .ok ["banana".toList, "ananas".toList] := by
  decide +kernel

/-- **C227.** If the words of a list are divided over two lists, the computed scores of a lookup are the
merge of those of the parts: the best of both. -/
theorem C227_float_v5b_merge (hcf : ∀ w, cf (cf w) = cf w) (hD : ExactDouble R) {u a b : WL}
    (hu : V5bReachableF R cf u) (ha : V5bReachableF R cf a) (hb : V5bReachableF R cf b)
    (hp : Parts u a b) {agg : List ℚ → S} (hagg : MonotoneAggF R u.nList.length agg)
    {w : List Char} (hw : w ≠ []) {k : ℤ} (hk : 0 < k)
    (hl : ∀ v ∈ u.wordList, (u.fold cf w).length + v.length + 2 ≤ 2 ^ 53) (normalize : Bool) :
    ∃ ru ra rb, v5bLookupF R agg cf u (.str w) (.int k) normalize = .ok ru ∧
      v5bLookupF R agg cf a (.str w) (.int k) normalize = .ok ra ∧
      v5bLookupF R agg cf b (.str w) (.int k) normalize = .ok rb ∧
      ru.map Prod.snd = best id k.toNat ((ra ++ rb).map Prod.snd) := by
  have fa : a.fold cf w = u.fold cf w := by unfold WL.fold; rw [hp.caseA]
  have fb : b.fold cf w = u.fold cf w := by unfold WL.fold; rw [hp.caseB]
  by_cases hc : u.fold cf w = [] ∨ ¬ Clean (u.fold cf w)
  · refine ⟨[], [], [], v5bLookupF_empty hw hk hc normalize,
      v5bLookupF_empty hw hk (by rwa [fa]) normalize,
      v5bLookupF_empty hw hk (by rwa [fb]) normalize, ?_⟩
    simp [best]
  rw [not_or, not_not] at hc
  have hperm := hp.wordList
  have hla : ∀ v ∈ a.wordList, (a.fold cf w).length + v.length + 2 ≤ 2 ^ 53 := fun v hv => by
    rw [fa]; exact hl v (hperm.mem_iff.2 (List.mem_append_left _ hv))
  have hlb : ∀ v ∈ b.wordList, (b.fold cf w).length + v.length + 2 ≤ 2 ^ 53 := fun v hv => by
    rw [fb]; exact hl v (hperm.mem_iff.2 (List.mem_append_right _ hv))
  refine ⟨_, _, _, C226_float_v5b_full_scan hcf hD hu hagg hw hk hc.1 hc.2 hl normalize,
    C226_float_v5b_full_scan hcf hD ha (by rwa [hp.sizesA]) hw hk (by rw [fa]; exact hc.1)
      (by rw [fa]; exact hc.2) hla normalize,
    C226_float_v5b_full_scan hcf hD hb (by rwa [hp.sizesB]) hw hk (by rw [fb]; exact hc.1)
      (by rw [fb]; exact hc.2) hlb normalize, ?_⟩
  have nod : ∀ s : WL, V5bReachableF R cf s → s.wordList.Nodup := by
    intro s hs
    obtain ⟨se, hse, hR⟩ := hs.rounded
    rw [hR.eqs.2.1]
    exact ((hse.reachable hcf).inv hcf).nodupW
  have val : ∀ s : WL, V5bReachableF R cf s →
      ((best (fun v => agg (sumScoreVecF R s.nList normalize (s.fold cf w) v)) k.toNat
        (discovered s.nList s.filterN (s.fold cf w) s.wordList)).map
          (fun v => (v, agg (sumScoreVecF R s.nList normalize (s.fold cf w) v)))).map Prod.snd =
      best id k.toNat ((eligibleWords s.nList s.filterN (s.fold cf w) s.wordList).map
        (fun v => agg (sumScoreVecF R s.nList normalize (s.fold cf w) v))) := by
    intro s hs
    rw [List.map_map, ← best_perm (((discovered_perm s.nList s.filterN (s.fold cf w)
      (nod s hs))).map _), best_map]
    rfl
  rw [List.map_append, val u hu, val a ha, val b hb, best_merge, fa, fb, hp.sizesA, hp.sizesB,
    hp.filterA, hp.filterB, ← List.map_append]
  apply best_perm
  refine List.Perm.map _ ?_
  have := eligibleWords_perm (ns := u.nList) (f := u.filterN) (q := u.fold cf w) hp.wordList
  unfold eligibleWords at this ⊢
  rwa [List.filter_append] at this

example : Parts demoBF
    (v5bRunF binary64 id demoB₀ [.str "xyz".toList, .str "bandana".toList])
    (v5bRunF binary64 id demoB₀ [.str "banana".toList, .str "ananas".toList]) :=
  ⟨by decide +kernel, by decide +kernel, by decide +kernel, by decide +kernel, by decide +kernel,
    by decide +kernel, by decide +kernel⟩

end Fp
end Verif
