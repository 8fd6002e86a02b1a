import Verif.Fp.V3Error

/-!
# Properties C233–C236: `ApproxWordListV3` with floats
-/

namespace Verif
namespace Fp

open GramSpec IndexSpec

variable {R : Rounding} {cf : List Char → List Char} {S : Type} [LinearOrder S]

/-- **C233.** Complete description of `lookup` with floats after any sequence of `add_word` calls
(positive sizes): the exceptions are those of exact arithmetic (C224), and otherwise it returns what a
full scan that computes every score with floats returns, ties staying in the order in which the query
comes across the words. -/
theorem C233_float_v3_full_scan (hcf : ∀ w, cf (cf w) = cf w) {n : NArg} {cs : Bool} {st₀ : V3}
    (h0 : V3.new n cs = .ok st₀) (hn : ∀ n ∈ st₀.nList, 0 < n) (args : List PyVal)
    (agg : List ℚ → S) (w : List Char) (topK : Option ℤ) :
    let fold : List Char → List Char := fun w => if (!cs) = true then cf w else w
    let q := fold w
    let found := discovered3 st₀.nList q (stored3 fold (args.map PyVal.str?))
    w ≠ [] → Clean q →
    v3LookupF R agg cf (v3AddAllF R cf st₀ args) (.str w) topK =
      (if ∃ n ∈ st₀.nList, (q.length : ℤ) + 2 = n then .error .zeroDivisionError
      else if found = [] then .error .indexError
      else if ∃ n ∈ st₀.nList, (q.length : ℤ) + 3 = n then .error .zeroDivisionError
      else .ok ((best (fun v => agg (scoreVec3F R st₀.nList q v)) (limit3 topK found.length)
        found).map (fun v => (v, agg (scoreVec3F R st₀.nList q v), bigramSimF R true q v)))) := by
  intro fold q found hw hq
  obtain ⟨hi, e1, e2, e3⟩ := V3.addAll_spec hcf h0 hn args
  have hR : V3Rounded R (st₀.addAll cf args) (v3AddAllF R cf st₀ args) :=
    v3AddAllF_rounded (v3New_rounded h0) args
  have hfold : (v3AddAllF R cf st₀ args).fold cf w = q := by
    rw [hR.fold]; unfold V3.fold; rw [e2]
  have h := v3LookupF_exact hi hR agg hw hfold hq topK
  rw [e1, e3] at h
  exact h

/-- A list with the given sizes and words in binary64. -/
def list3F (ns : List ℤ) (ws : List String) : V3 :=
  v3AddAllF binary64 id { nList := ns, caseInsensitive := false, vocabulary := [], vocabIndices := [],
                          ngramIndices := [] } (ws.map (fun s => .str s.toList))

theorem list3F_reachable {ns : List ℤ} (hn : ∀ n ∈ ns, 0 < n) (ws : List String) :
    V3ReachableF binary64 id (list3F ns ws) :=
  ⟨.iter ns, true, _, _, rfl, hn, rfl⟩

/-- The scores of "bananas" are not representable. -/
example : (v3LookupF binary64 (mean1F binary64) id (list3F [3] ["bandana", "xanana"])
    (.str "bananas".toList) none).map (List.map (fun r => (r.1, r.2.1))) =
      .ok [("bandana".toList, 7291542253837945 / 18014398509481984),
        ("xanana".toList, 868551356707167 / 2251799813685248)] := by
  decide +kernel

/-- **C233.** The answer with floats depends only on the configuration and on the stored words that
share an n-gram with the query, in the order in which they were added; exceptions included. -/
theorem C233_float_v3_only_matching_words (hcf : ∀ w, cf (cf w) = cf w) {st st' : V3}
    (hr : V3ReachableF R cf st) (hr' : V3ReachableF R cf st') (hn : st.nList = st'.nList)
    (hci : st.caseInsensitive = st'.caseInsensitive) (agg : List ℚ → S) (word : PyVal)
    (topK : Option ℤ)
    (h : ∀ w, word = .str w → st.vocabulary.filter (fun v => Matches3 st.nList (st.fold cf w) v) =
      st'.vocabulary.filter (fun v => Matches3 st.nList (st.fold cf w) v)) :
    v3LookupF R agg cf st word topK = v3LookupF R agg cf st' word topK := by
  by_cases hc : ∀ w, word = .str w → w ≠ [] → ¬ Clean (st.fold cf w)
  · obtain ⟨e, h1, h2⟩ := v3LookupF_other (R := R) (agg := agg) hci topK topK hc
    rw [h1, h2]
  · simp only [not_forall, not_not] at hc
    obtain ⟨w, rfl, hw, hq⟩ := hc
    obtain ⟨se, hse, hR⟩ := hr.rounded
    obtain ⟨se', hse', hR'⟩ := hr'.rounded
    have hf : st'.fold cf w = st.fold cf w := by unfold V3.fold; rw [hci]
    have hx := h w rfl
    rw [v3LookupF_exact (hse.inv hcf) hR agg hw rfl hq topK,
      v3LookupF_exact (hse'.inv hcf) hR' agg hw hf hq topK, ← hR.eqs.1, ← hR'.eqs.1, ← hR.eqs.2.1,
      ← hR'.eqs.2.1, ← hn, ← discovered3_matches, hx, discovered3_matches]

theorem v3AddAllF_words (hcf : ∀ w, cf (cf w) = cf w) {st : V3} (hr : V3ReachableF R cf st)
    (args : List PyVal) :
    (v3AddAllF R cf st args).nList = st.nList ∧
    (v3AddAllF R cf st args).caseInsensitive = st.caseInsensitive ∧
    ∃ new, (v3AddAllF R cf st args).vocabulary = st.vocabulary ++ new ∧
      ∀ v ∈ new, ∃ u, PyVal.str u ∈ args ∧ v = st.fold cf u := by
  obtain ⟨se, hse, hR⟩ := hr.rounded
  obtain ⟨a1, a2, a3⟩ := (v3AddAllF_rounded (cf := cf) hR args).eqs
  obtain ⟨c1, c2, new, c3, c4⟩ := V3.addAll_words hcf hse args
  refine ⟨by rw [a1, c1, hR.eqs.1], by rw [a3, c2, hR.eqs.2.2], new, by rw [a2, c3, hR.eqs.2.1], ?_⟩
  intro v hv
  obtain ⟨u, hu, e⟩ := c4 v hv
  exact ⟨u, hu, by rw [e, hR.fold]⟩

/-- **C233.** Adding words that share no n-gram with the query does not change the answer. -/
theorem C233_float_v3_unrelated_words (hcf : ∀ w, cf (cf w) = cf w) {st : V3}
    (hr : V3ReachableF R cf st) (agg : List ℚ → S) (word : PyVal) (topK : Option ℤ)
    (args : List PyVal)
    (h : ∀ w, word = .str w → ∀ v, PyVal.str v ∈ args →
      ¬ Matches3 st.nList (st.fold cf w) (st.fold cf v)) :
    v3LookupF R agg cf (v3AddAllF R cf st args) word topK = v3LookupF R agg cf st word topK := by
  obtain ⟨c1, c2, new, c3, c4⟩ := v3AddAllF_words hcf hr args
  symm
  refine C233_float_v3_only_matching_words hcf hr (hr.addAll args) c1.symm c2.symm agg word topK
    (fun w hw => ?_)
  rw [c3, List.filter_append, (List.filter_eq_nil_iff (l := new)).2, List.append_nil]
  intro v hv he
  obtain ⟨u, hu, rfl⟩ := c4 v hv
  exact h w hw u hu (by simpa using he)

example : ¬ Matches3 [3] "bananas".toList "pqrs".toList ∧
    (v3AddAllF binary64 id (list3F [3] ["bandana"]) [.str "pqrs".toList]).vocabulary ≠
      (list3F [3] ["bandana"]).vocabulary := by
  decide +kernel

/-- **C234.** A positive `top_k` returns the beginning of the list returned without `top_k`, and it
does not matter for exceptions. -/
theorem C234_float_v3_prefix (hcf : ∀ w, cf (cf w) = cf w) {st : V3} (hr : V3ReachableF R cf st)
    (agg : List ℚ → S) (word : PyVal) {k : ℤ} (hk : 0 < k) :
    v3LookupF R agg cf st word (some k) =
      (v3LookupF R agg cf st word none).map (List.take k.toNat) := by
  by_cases hc : ∀ w, word = .str w → w ≠ [] → ¬ Clean (st.fold cf w)
  · obtain ⟨e, h1, h2⟩ := v3LookupF_other (R := R) (agg := agg) (st := st) (st' := st) rfl (some k)
      none hc
    rw [h1, h2]; rfl
  · simp only [not_forall, not_not] at hc
    obtain ⟨w, rfl, hw, hq⟩ := hc
    obtain ⟨se, hse, hR⟩ := hr.rounded
    rw [v3LookupF_exact (hse.inv hcf) hR agg hw rfl hq, v3LookupF_exact (hse.inv hcf) hR agg hw rfl hq]
    split
    · rfl
    split
    · rfl
    split
    · rfl
    · simp only [Except.map, limit3, if_pos hk]
      rw [← List.map_take, best_eq, best_eq, List.take_take]
      congr 2
      by_cases hl : k.toNat ≤ (discovered3 se.nList (st.fold cf w) se.vocabulary).length
      · rw [Nat.min_eq_left hl]
      · rw [Nat.min_eq_right (by omega), List.take_of_length_le (by rw [length_sortDesc]; omega),
          List.take_of_length_le (by rw [length_sortDesc])]

/-- **C234.** A new word changes nothing but its own appearance: the other words keep their computed
scores and their order. -/
theorem C234_float_v3_added_word (hcf : ∀ w, cf (cf w) = cf w) {st : V3} (hr : V3ReachableF R cf st)
    {agg : List ℚ → S} {v : List Char} (hnew : st.fold cf v ∉ st.vocabulary) {word : PyVal}
    {res : List (List Char × S × ℚ)} (h : v3LookupF R agg cf st word none = .ok res) :
    ∃ res', v3LookupF R agg cf (v3AddWordF R cf st (.str v)).1 word none = .ok res' ∧
      res = res'.filter (fun r => r.1 ≠ st.fold cf v) := by
  obtain ⟨c1, c2, new, c3, c4⟩ := v3AddAllF_words hcf hr [.str v]
  have hr' := hr.addAll [.str v]
  have e : v3AddAllF R cf st [.str v] = (v3AddWordF R cf st (.str v)).1 := rfl
  rw [e] at c1 c2 c3 hr'
  generalize (v3AddWordF R cf st (.str v)).1 = st' at *
  by_cases hc : ∀ w, word = .str w → w ≠ [] → ¬ Clean (st.fold cf w)
  · obtain ⟨e, he, -⟩ := v3LookupF_other (R := R) (agg := agg) (st' := st) rfl none none hc
    rw [he] at h; cases h
  simp only [not_forall, not_not] at hc
  obtain ⟨w, rfl, hw, hq⟩ := hc
  have hf : st'.fold cf w = st.fold cf w := by unfold V3.fold; rw [c2]
  obtain ⟨se, hse, hR⟩ := hr.rounded
  obtain ⟨se', hse', hR'⟩ := hr'.rounded
  rw [v3LookupF_exact (hse.inv hcf) hR agg hw rfl hq, ← hR.eqs.1, ← hR.eqs.2.1] at h
  rw [v3LookupF_exact (hse'.inv hcf) hR' agg hw hf hq, ← hR'.eqs.1, ← hR'.eqs.2.1, c1]
  have hfil : st.vocabulary = st'.vocabulary.filter (fun u => u ≠ st.fold cf v) := by
    rw [c3, List.filter_append, List.filter_eq_self.2, (List.filter_eq_nil_iff (l := new)).2,
      List.append_nil]
    · intro x hx hne
      obtain ⟨u, hu, rfl⟩ := c4 x hx
      have hu : u = v := by simpa using hu
      subst hu
      simp at hne
    · intro u hu
      simp only [ne_eq, decide_not, Bool.not_eq_true', decide_eq_false_iff_not]
      rintro rfl
      exact hnew hu
  split at h
  · cases h
  rename_i n1
  split at h
  · cases h
  rename_i n2
  split at h
  · cases h
  rename_i n3
  have n2' : discovered3 st.nList (st.fold cf w) st'.vocabulary ≠ [] := by
    intro h0
    apply n2
    rw [hfil, discovered3_filter, h0]; rfl
  refine ⟨_, by rw [if_neg n1, if_neg n2', if_neg n3], ?_⟩
  injection h with h
  rw [← h, List.filter_map]
  congr 1
  simp only [limit3, best_eq]
  rw [List.take_of_length_le (by rw [length_sortDesc]),
    List.take_of_length_le (by rw [length_sortDesc])]
  conv_lhs => rw [hfil, discovered3_filter, sortDesc_filter]
  rfl

example : "bananas".toList ∉ (list3F [3] ["bandana", "xanana"]).vocabulary ∧
    (v3LookupF binary64 (mean1F binary64) id (list3F [3] ["bandana", "xanana"])
      (.str "bananas".toList) none).map (List.map Prod.fst) =
        .ok ["bandana".toList, "xanana".toList] ∧
    (v3LookupF binary64 (mean1F binary64) id (list3F [3] ["bandana", "xanana", "bananas"])
      (.str "bananas".toList) none).map (List.map Prod.fst) =
        .ok ["bananas".toList, "bandana".toList, "xanana".toList] ∧
    (v3LookupF binary64 (mean1F binary64) id (list3F [3] ["bandana", "xanana", "bananas"])
      (.str "bananas".toList) (some 2)).map (List.map Prod.fst) =
        .ok ["bananas".toList, "bandana".toList] := by
  decide +kernel

/-- **C234.** If the words of a list are divided over two lists and all three lookups succeed, the
computed scores of the whole list are the merge of those of the parts. -/
theorem C234_float_v3_merge (hcf : ∀ w, cf (cf w) = cf w) {u a b : V3} (hu : V3ReachableF R cf u)
    (ha : V3ReachableF R cf a) (hb : V3ReachableF R cf b) (hna : a.nList = u.nList)
    (hnb : b.nList = u.nList) (hca : a.caseInsensitive = u.caseInsensitive)
    (hcb : b.caseInsensitive = u.caseInsensitive)
    (hp : u.vocabulary.Perm (a.vocabulary ++ b.vocabulary)) {agg : List ℚ → S} {word : PyVal}
    {k : ℤ} (hk : 0 < k) {ru ra rb : List (List Char × S × ℚ)}
    (hru : v3LookupF R agg cf u word (some k) = .ok ru)
    (hra : v3LookupF R agg cf a word (some k) = .ok ra)
    (hrb : v3LookupF R agg cf b word (some k) = .ok rb) :
    ru.map (fun r => r.2.1) = best id k.toNat ((ra ++ rb).map (fun r => r.2.1)) := by
  have val : ∀ {s : V3} {r}, V3ReachableF R cf s → v3LookupF R agg cf s word (some k) = .ok r →
      ∃ w, word = .str w ∧ r.map (fun r => r.2.1) = best id k.toNat
        ((s.vocabulary.filter (fun v => Matches3 s.nList (s.fold cf w) v)).map
          (fun v => agg (scoreVec3F R s.nList (s.fold cf w) v))) := by
    intro s r hs hr
    by_cases hc : ∀ w, word = .str w → w ≠ [] → ¬ Clean (s.fold cf w)
    · obtain ⟨e, he, -⟩ := v3LookupF_other (R := R) (agg := agg) (st' := s) rfl (some k) none hc
      rw [he] at hr; cases hr
    simp only [not_forall, not_not] at hc
    obtain ⟨w, rfl, hw, hq⟩ := hc
    refine ⟨w, rfl, ?_⟩
    obtain ⟨se, hse, hR⟩ := hs.rounded
    have hnd : s.vocabulary.Nodup := by rw [hR.eqs.2.1]; exact (hse.inv hcf).nodupW
    rw [v3LookupF_exact (hse.inv hcf) hR agg hw rfl hq, ← hR.eqs.1, ← hR.eqs.2.1] at hr
    split at hr
    · cases hr
    split at hr
    · cases hr
    split at hr
    · cases hr
    injection hr with hr
    rw [← hr, List.map_map, ← best_perm ((discovered3_perm s.nList (s.fold cf w) hnd).map _), best_map]
    simp only [limit3, if_pos hk]
    rfl
  obtain ⟨w, rfl, eu⟩ := val hu hru
  obtain ⟨w1, e1, ea⟩ := val ha hra
  obtain ⟨w2, e2, eb⟩ := val hb hrb
  injection e1 with e1
  injection e2 with e2
  subst e1 e2
  have fa : a.fold cf w = u.fold cf w := by unfold V3.fold; rw [hca]
  have fb : b.fold cf w = u.fold cf w := by unfold V3.fold; rw [hcb]
  rw [List.map_append, eu, ea, eb, best_merge, fa, fb, hna, hnb, ← List.map_append,
    ← List.filter_append]
  exact best_perm ((hp.filter _).map _)

example :
    (list3F [3] ["bandana", "xanana"]).vocabulary.Perm
      ((list3F [3] ["xanana"]).vocabulary ++ (list3F [3] ["bandana"]).vocabulary) ∧
    (v3LookupF binary64 (mean1F binary64) id (list3F [3] ["bandana"])
      (.str "bananas".toList) (some 1)).map (List.map Prod.fst) = .ok ["bandana".toList] ∧
    (v3LookupF binary64 (mean1F binary64) id (list3F [3] ["xanana"])
      (.str "bananas".toList) (some 1)).map (List.map Prod.fst) = .ok ["xanana".toList] := by
  decide +kernel

/-- **C235.** With floats every score still lies between 0 and 1, and a stored word equal to the query
scores exactly 1.0, as long as every size is at least 2 and at most the length of the query plus 2. -/
theorem C235_float_v3_score_range {ns : List ℤ} (hne : ns ≠ []) {q w : List Char}
    (hn : ∀ n ∈ ns, 2 ≤ n ∧ n ≤ (q.length : ℤ) + 2) (hq : q.length + q.length + 4 ≤ 2 ^ 53)
    (hw : q.length + w.length + 4 ≤ 2 ^ 53) (hN : ns.length ≤ 2 ^ 53)
    (hS : (ns.length : ℕ∞) ≤ R.sumMax) :
    0 ≤ mean1F R (scoreVec3F R ns q w) ∧ mean1F R (scoreVec3F R ns q w) ≤ 1 ∧
      mean1F R (scoreVec3F R ns q q) = 1 := by
  obtain ⟨h1, h2⟩ := mean3F_bounds (R := R) (w := w)
    (fun n h => ⟨by have := (hn n h).1; omega, (hn n h).2⟩) hw hN hS
  exact ⟨h1, h2, mean3F_self hne hn hq hN hS⟩

/-- **C235.** Consequently a lookup of a stored word succeeds with floats, its first result has score
exactly 1.0, and all reported scores lie between 0 and 1. -/
theorem C235_float_v3_exact_match_score (hcf : ∀ w, cf (cf w) = cf w) {st : V3}
    (hr : V3ReachableF R cf st) (hne : st.nList ≠ []) {w : List Char} (topK : Option ℤ)
    (hw : w ≠ []) (hn : ∀ n ∈ st.nList, 2 ≤ n ∧ n ≤ ((st.fold cf w).length : ℤ) + 1)
    (hmem : st.fold cf w ∈ st.vocabulary)
    (hl : ∀ v ∈ st.vocabulary, (st.fold cf w).length + v.length + 4 ≤ 2 ^ 53)
    (hN : st.nList.length ≤ 2 ^ 53) (hS : (st.nList.length : ℕ∞) ≤ R.sumMax) :
    ∃ v x rest, v3LookupF R (mean1F R) cf st (.str w) topK = .ok ((v, 1, x) :: rest) ∧
      ∀ r ∈ rest, 0 ≤ r.2.1 ∧ r.2.1 ≤ 1 := by
  obtain ⟨se, hse, hR⟩ := hr.rounded
  have hi := hse.inv hcf
  obtain ⟨e1, e2, e3⟩ := hR.eqs
  have hq : Clean (st.fold cf w) := (hi.words _ (e2 ▸ hmem)).1
  have h := v3LookupF_exact hi hR (mean1F R) hw rfl hq topK
  rw [← e1, ← e2] at h
  set q := st.fold cf w with hqd
  have hself : Matches3 st.nList q q := by
    obtain ⟨n, hnm⟩ := List.exists_mem_of_ne_nil _ hne
    obtain ⟨h1, h2⟩ := hn n hnm
    have hg : gramsOf n q = grams n.toNat q := by
      unfold gramsOf; rw [if_pos (by omega)]
    have hl : (grams n.toNat q) ≠ [] := by
      intro hnil
      have := congrArg List.length hnil
      rw [grams, List.length_map, List.length_range, count_eq] at this
      simp only [List.length_nil] at this
      omega
    obtain ⟨g, hgm⟩ := List.exists_mem_of_ne_nil _ hl
    exact ⟨n, hnm, g, hgm, hg ▸ hgm⟩
  set D := discovered3 st.nList q st.vocabulary with hD
  have hqD : q ∈ D := mem_discovered3.2 ⟨hmem, hself⟩
  have hDw : ∀ v ∈ D, v ∈ st.vocabulary := fun v hv => (mem_discovered3.1 hv).1
  rw [if_neg (by rintro ⟨n, hnm, h'⟩; have := (hn n hnm).2; omega),
    if_neg (List.ne_nil_of_mem hqD),
    if_neg (by rintro ⟨n, hnm, h'⟩; have := (hn n hnm).2; omega), best_eq] at h
  set f : List Char → ℚ := fun v => mean1F R (scoreVec3F R st.nList q v) with hf
  have hn' : ∀ n ∈ st.nList, 2 ≤ n ∧ n ≤ (q.length : ℤ) + 2 :=
    fun n h => ⟨(hn n h).1, by have := (hn n h).2; omega⟩
  have hb : ∀ v ∈ D, 0 ≤ f v ∧ f v ≤ 1 := fun v hv =>
    mean3F_bounds (fun n h => ⟨by have := (hn n h).1; omega, (hn' n h).2⟩) (hl v (hDw v hv)) hN hS
  have h1 : f q = 1 := mean3F_self hne hn' (hl q hmem) hN hS
  have hsp := sortDesc_perm f D
  have hspw := sortDesc_pairwise f D
  cases hsort : sortDesc f D with
  | nil => rw [hsort] at hsp; exact absurd (hsp.mem_iff.2 hqD) List.not_mem_nil
  | cons v l =>
    rw [hsort] at hsp hspw
    have hv : f v = 1 := by
      apply le_antisymm (hb v (hsp.mem_iff.1 (by simp))).2
      rcases List.mem_cons.1 (hsp.mem_iff.2 hqD) with h' | h'
      · rw [← h', h1]
      · rw [← h1]; exact (List.pairwise_cons.1 hspw).1 _ h'
    obtain ⟨k, hk⟩ : ∃ k, limit3 topK D.length = k + 1 := by
      apply Nat.exists_eq_succ_of_ne_zero
      have := List.length_pos_of_mem hqD
      unfold limit3
      cases topK with
      | none => simp only; omega
      | some k =>
        by_cases h : 0 < k
        · simp only [if_pos h]; omega
        · simp only [if_neg h]; omega
    rw [hsort, hk, List.take_succ_cons, List.map_cons] at h
    have hv' : mean1F R.toFOps (scoreVec3F R.toFOps st.nList q v) = 1 := hv
    rw [hv'] at h
    refine ⟨v, _, _, h, ?_⟩
    intro r hr
    obtain ⟨u, hu, rfl⟩ := List.mem_map.1 hr
    exact hb u (hsp.mem_iff.1 (List.mem_cons_of_mem _ (List.mem_of_mem_take hu)))

example : (v3LookupF binary64 (mean1F binary64) id (list3F [2, 4] ["abcdefgh", "abcdefghi"])
    (.str "abcdefgh".toList) none).map (List.map (fun r => (r.1, decide (r.2.1 = 1)))) =
      .ok [("abcdefgh".toList, true), ("abcdefghi".toList, false)] := by
  decide +kernel

/-- **C235.** As in exact arithmetic (C71), with the default sizes a stored word equal to the query can
nevertheless come second: another word can score 1.0 as well. -/
theorem C235_float_v3_exact_match_not_first :
    V3ReachableF binary64 id (list3F [2, 4] ["abcabxxbcabc", "abc"]) ∧
    (v3LookupF binary64 (mean1F binary64) id (list3F [2, 4] ["abcabxxbcabc", "abc"])
      (.str "abc".toList) (some 10)).map (List.map (fun r => (r.1, r.2.1))) =
        .ok [("abcabxxbcabc".toList, 1), ("abc".toList, 1)] := by
  refine ⟨list3F_reachable (by decide) _, ?_⟩
  decide +kernel

/-- **C236.** How far rounding can move the score of a lookup in an `ApproxWordListV3` from the exact
one, with `N` sizes and at most `T` n-grams in query and word: at most `(4T² + 2T + 2N + 4)u`. -/
theorem C236_float_v3_score_error {ns : List ℤ} {q w : List Char}
    (hn : ∀ n ∈ ns, 0 < n ∧ n ≤ (q.length : ℤ) + 2) {T : ℕ} (hTd : q.length + w.length + 4 ≤ T)
    (hT : T ≤ 2 ^ 53) (hTu : (T : ℚ) * R.u ≤ 1 / 2)
    (hN : ((ns.length + 1 : ℕ) : ℚ) * R.u ≤ 1 / 2) (hS : (ns.length : ℕ∞) ≤ R.sumMax) :
    |mean1F R (scoreVec3F R ns q w) - mean1 (scoreVec3 ns q w)| ≤
      (4 * (T : ℚ) ^ 2 + 2 * T + 2 * ns.length + 4) * R.u :=
  mean3F_err hn hTd hT hTu hN hS

example : mean1F binary64 (scoreVec3F binary64 [3] "bananas".toList "bandana".toList) =
      7291542253837945 / 18014398509481984 ∧
    mean1 (scoreVec3 [3] "bananas".toList "bandana".toList) = 17 / 42 := by
  refine ⟨?_, ?_⟩ <;> decide +kernel

/-- **C236.** Words whose exact scores differ by more than twice that are ranked with floats as in exact
arithmetic. -/
theorem C236_float_v3_order_kept {ns : List ℤ} {q v w : List Char}
    (hn : ∀ n ∈ ns, 0 < n ∧ n ≤ (q.length : ℤ) + 2) {T : ℕ} (hTv : q.length + v.length + 4 ≤ T)
    (hTw : q.length + w.length + 4 ≤ T) (hT : T ≤ 2 ^ 53) (hTu : (T : ℚ) * R.u ≤ 1 / 2)
    (hN : ((ns.length + 1 : ℕ) : ℚ) * R.u ≤ 1 / 2) (hS : (ns.length : ℕ∞) ≤ R.sumMax)
    (h : mean1 (scoreVec3 ns q v) + 2 * ((4 * (T : ℚ) ^ 2 + 2 * T + 2 * ns.length + 4) * R.u) <
      mean1 (scoreVec3 ns q w)) :
    mean1F R (scoreVec3F R ns q v) < mean1F R (scoreVec3F R ns q w) := by
  have h1 := abs_le.1 (mean3F_err (R := R) hn hTv hT hTu hN hS)
  have h2 := abs_le.1 (mean3F_err (R := R) hn hTw hT hTu hN hS)
  linarith [h1.2, h2.1]

example : mean1 (scoreVec3 [2, 4] "bananas".toList "bandana".toList) +
    2 * ((4 * (18 : ℚ) ^ 2 + 2 * 18 + 2 * 2 + 4) * binary64.u) <
      mean1 (scoreVec3 [2, 4] "bananas".toList "banana".toList) := by
  have e : binary64.u = 1 / 9007199254740992 := by with_unfolding_all rfl
  rw [e]
  decide +kernel

end Fp
end Verif
