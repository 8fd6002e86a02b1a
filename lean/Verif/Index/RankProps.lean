import Verif.Index.RankLemmas
import Verif.Index.Props

/-!
# Properties C203–C206: the exact result of a lookup, ties included
-/

namespace Verif

open GramSpec IndexSpec

variable {cf : List Char → List Char} {S : Type} [LinearOrder S]

/-- C203. A lookup that does not raise (see C30) returns exactly what a full scan without index,
filter tables and pruning returns: the same words, scores and order, ties included. -/
theorem C203_full_scan (hcf : ∀ w, cf (cf w) = cf w) {st : WL} (hr : st.Reachable cf)
    {agg : List ℚ → S} (hagg : MonotoneAgg agg) {w : List Char} {k : ℤ} (hw : w ≠ []) (hk : 0 < k)
    (hq : Clean (st.fold cf w)) (normalize : Bool)
    (hfail : ¬ LookupFails agg st.nList st.filterN normalize st.wordList k.toNat (st.fold cf w)) :
    st.lookup agg cf (.str w) (.int k) normalize =
      .ok ((fullScan agg st.nList st.filterN normalize st.wordList k.toNat (st.fold cf w)).map
        (fun v => (v, toLex (agg (scoreVec st.nList normalize (st.fold cf w) v),
          bigramSim normalize (st.fold cf w) v)))) ∧
    ∀ v ∈ st.wordList, nmd (.str (st.fold cf w)) (.str v) (.int 2) true normalize =
      .ok (bigramSim normalize (st.fold cf w) v) := by
  refine ⟨lookup_exact (hr.inv hcf) (hr.ordered hcf) hagg hw hk rfl hq normalize hfail, ?_⟩
  intro v hv
  obtain ⟨i, hi, rfl⟩ := List.getElem_of_mem hv
  obtain ⟨x, hx, _⟩ := rescore_ok (hr.inv hcf) hq normalize (List.getElem?_eq_getElem hi)
    (agg [])
  unfold bigramSim
  rw [hx]

/-- Two words tie for the second place; "abcy" is met first because it shares an earlier n-gram of
the query, although "zbcd" was added before it. -/
example :
    let st := ({ demo₀ with nList := [3] } : WL).run id
      [.add (.str "zbcd".toList), .add (.str "abcy".toList), .add (.str "abcd".toList)]
    discovered [3] 0 "abcd".toList st.wordList =
      ["abcy".toList, "abcd".toList, "zbcd".toList] ∧
    plain (st.lookup mean1 id (.str "abcd".toList) (.int 3) false) =
      .ok [("abcd", 8, 10), ("abcy", 4, 6), ("zbcd", 4, 6)] := by
  decide +kernel

/-- C204. A lookup depends only on the words that share an n-gram with the query: two lists with
the same configuration in which these words are the same and were added in the same order answer
alike, exceptions included. -/
theorem C204_only_eligible_words (hcf : ∀ w, cf (cf w) = cf w) {st st' : WL}
    (hr : st.Reachable cf) (hr' : st'.Reachable cf) (hn : st.nList = st'.nList)
    (hfn : st.filterN = st'.filterN) (hci : st.caseInsensitive = st'.caseInsensitive)
    {agg : List ℚ → S} (hagg : MonotoneAgg agg) (word topK : PyVal) (normalize : Bool)
    (h : ∀ w, word = .str w → eligibleWords st.nList st.filterN (st.fold cf w) st.wordList =
      eligibleWords st.nList st.filterN (st.fold cf w) st'.wordList) :
    st.lookup agg cf word topK normalize = st'.lookup agg cf word topK normalize := by
  have hfold : ∀ w, st.fold cf w = st'.fold cf w := by intro w; unfold WL.fold; rw [hci]
  have hcheck : st.checkLookup cf word topK = st'.checkLookup cf word topK := by
    unfold WL.checkLookup; simp only [hfold]
  cases hc : st.checkLookup cf word topK with
  | error e =>
    unfold WL.lookup
    rw [← hcheck, hc]; rfl
  | ok p =>
    obtain ⟨q, K⟩ := p
    obtain ⟨w, k, rfl, rfl, hw, hk, hq, rfl, rfl⟩ := checkLookup_inv hc
    have he := h w rfl
    obtain ⟨f1, _⟩ := lookup_spec (hr.inv hcf) hagg hw hk rfl hq normalize
    obtain ⟨f2, _⟩ := lookup_spec (hr'.inv hcf) hagg hw hk (hfold w).symm hq normalize
    rw [← hn, ← hfn] at f2
    by_cases hf : LookupFails agg st.nList st.filterN normalize st.wordList k.toNat (st.fold cf w)
    · rw [f1 hf, f2 ((lookupFails_congr he).1 hf)]
    · have e1 := lookup_exact (hr.inv hcf) (hr.ordered hcf) hagg hw hk rfl hq normalize hf
      have e2 := lookup_exact (hr'.inv hcf) (hr'.ordered hcf) hagg hw hk (hfold w).symm hq normalize
        (by rw [← hn, ← hfn]; exact fun hc => hf ((lookupFails_congr he).2 hc))
      rw [e1, e2, ← hn, ← hfn]
      unfold fullScan
      rw [discovered_congr he]

/-- C204 for `ApproxWordListV5`. -/
theorem C204_only_eligible_words_v5 [Ring S] [IsStrictOrderedRing S] (hcf : ∀ w, cf (cf w) = cf w)
    {st st' : WL}
    (hr : st.Reachable cf) (hr' : st'.Reachable cf) (hn : st.nList = st'.nList)
    (hfn : st.filterN = st'.filterN) (hci : st.caseInsensitive = st'.caseInsensitive)
    {agg : List ℚ → S} (hagg : MonotoneAgg agg) (word topK : PyVal) (invert normalize : Bool)
    (h : ∀ w, word = .str w → eligibleWords st.nList st.filterN (st.fold cf w) st.wordList =
      eligibleWords st.nList st.filterN (st.fold cf w) st'.wordList) :
    st.lookupV5 agg cf word topK invert normalize =
      st'.lookupV5 agg cf word topK invert normalize := by
  have hfold : ∀ w, st.fold cf w = st'.fold cf w := by intro w; unfold WL.fold; rw [hci]
  have hcheck : st.checkLookup cf word topK = st'.checkLookup cf word topK := by
    unfold WL.checkLookup; simp only [hfold]
  cases hc : st.checkLookup cf word topK with
  | error e =>
    unfold WL.lookupV5
    rw [← hcheck, hc]; rfl
  | ok p =>
    obtain ⟨q, K⟩ := p
    obtain ⟨w, k, rfl, rfl, hw, hk, hq, rfl, rfl⟩ := checkLookup_inv hc
    have he := h w rfl
    obtain ⟨f1, _⟩ := lookupV5_spec (hr.inv hcf) hagg hw hk rfl hq invert normalize
    obtain ⟨f2, _⟩ := lookupV5_spec (hr'.inv hcf) hagg hw hk (hfold w).symm hq invert normalize
    rw [← hn, ← hfn] at f2
    by_cases hf : LookupFails agg st.nList st.filterN normalize st.wordList k.toNat (st.fold cf w)
    · rw [f1 hf, f2 ((lookupFails_congr he).1 hf)]
    · have e1 := lookupV5_exact (hr.inv hcf) (hr.ordered hcf) hagg hw hk rfl hq invert normalize hf
      have e2 := lookupV5_exact (hr'.inv hcf) (hr'.ordered hcf) hagg hw hk (hfold w).symm hq invert
        normalize (by rw [← hn, ← hfn]; exact fun hc => hf ((lookupFails_congr he).2 hc))
      rw [e1, e2, ← hn, ← hfn, discovered_congr he]
      congr 4
      apply List.filter_congr
      intro v _
      rw [decide_eq_decide, not_iff_not]
      exact outranked_congr he v

/-- C205. Adding words none of which shares an n-gram with the query does not change the answer to
the query, exceptions included. -/
theorem C205_unrelated_words (hcf : ∀ w, cf (cf w) = cf w) {st : WL} (hr : st.Reachable cf)
    {agg : List ℚ → S} (hagg : MonotoneAgg agg) (word topK : PyVal) (normalize : Bool)
    (ops : List WLOp)
    (h : ∀ w, word = .str w → ∀ v, WLOp.add (.str v) ∈ ops →
      ¬ Eligible st.nList st.filterN (st.fold cf w) (st.fold cf v)) :
    (st.run cf ops).lookup agg cf word topK normalize = st.lookup agg cf word topK normalize := by
  have hr' : ∀ ops, (st.run cf ops).Reachable cf := by
    intro ops
    obtain ⟨n, cs, fn, st₀, ops₀, h0, rfl⟩ := hr
    exact ⟨n, cs, fn, st₀, ops₀ ++ ops, h0, by simp [WL.run]⟩
  have key : (st.run cf ops).nList = st.nList ∧ (st.run cf ops).filterN = st.filterN ∧
      (st.run cf ops).caseInsensitive = st.caseInsensitive ∧
      ∀ w, word = .str w →
        eligibleWords st.nList st.filterN (st.fold cf w) (st.run cf ops).wordList =
          eligibleWords st.nList st.filterN (st.fold cf w) st.wordList := by
    induction ops using List.reverseRecOn with
    | nil => exact ⟨rfl, rfl, rfl, fun _ _ => rfl⟩
    | append_singleton ops op ih =>
      obtain ⟨i1, i2, i3, i4⟩ := ih (fun w hw v hv => h w hw v (List.mem_append_left _ hv))
      rw [run_append_singleton]
      cases op with
      | lookup _ _ _ => exact ⟨i1, i2, i3, i4⟩
      | add v =>
        have hi := (hr' ops).inv hcf
        obtain ⟨c1, c2, c3⟩ := config_addWord hcf hi v
        refine ⟨c1.trans i1, c2.trans i2, c3.trans i3, ?_⟩
        intro w hw
        have hcase : ((st.run cf ops).addWord cf v).1.wordList = (st.run cf ops).wordList ∨
            ∃ u, v = .str u ∧ ((st.run cf ops).addWord cf v).1.wordList =
              (st.run cf ops).wordList ++ [st.fold cf u] := by
          rw [addWord_cases hcf hi]
          cases v with
          | int i => exact Or.inl rfl
          | other => exact Or.inl rfl
          | str u =>
            simp only
            split
            · exact Or.inl rfl
            split
            · exact Or.inl rfl
            split
            · exact Or.inl rfl
            split
            · exact Or.inl rfl
            · refine Or.inr ⟨u, rfl, ?_⟩
              rw [wordList_inserted]
              congr 2
              unfold WL.fold; rw [i3]
        show eligibleWords st.nList st.filterN (st.fold cf w)
          ((st.run cf ops).addWord cf v).1.wordList = _
        rcases hcase with hcase | ⟨u, rfl, hcase⟩
        · rw [hcase]; exact i4 w hw
        · rw [hcase, eligibleWords, List.filter_append, ← i4 w hw]
          have hne := h w hw u (List.mem_append_right _ List.mem_cons_self)
          simp [hne, eligibleWords]
  obtain ⟨k1, k2, k3, k4⟩ := key
  symm
  exact C204_only_eligible_words hcf hr (hr' ops) k1.symm k2.symm k3.symm hagg word topK normalize
    (fun w hw => (k4 w hw).symm)

/-- "xyz" shares no n-gram with "bananas" (`n = (2, 3)`); "cabana", stored already, does. -/
example : ¬ Eligible demo.nList demo.filterN "bananas".toList "xyz".toList ∧
    Eligible demo.nList demo.filterN "bananas".toList "cabana".toList ∧
    (demo.run id [.add (.str "xyz".toList)]).wordList ≠ demo.wordList := by
  decide +kernel

/-- No tie at the end of the first `k` scores stretches beyond the first `2 k`. -/
def ShortTies (agg : List ℚ → S) (ns : List ℤ) (filterN : ℤ) (normalize : Bool)
    (words : List (List Char)) (k : ℕ) (q : List Char) : Prop :=
  ∀ w ∈ eligibleWords ns filterN q words,
    ((eligibleWords ns filterN q words).filter (fun v =>
      agg (scoreVec ns normalize q w) < agg (scoreVec ns normalize q v))).length < k →
    ((eligibleWords ns filterN q words).filter (fun v =>
      agg (scoreVec ns normalize q w) ≤ agg (scoreVec ns normalize q v))).length ≤ 2 * k

instance (agg : List ℚ → S) (ns : List ℤ) (filterN : ℤ) (normalize : Bool)
    (words : List (List Char)) (k : ℕ) (q : List Char) :
    Decidable (ShortTies agg ns filterN normalize words k q) := by
  unfold ShortTies; infer_instance

/-- C206. If no tie at the end of the first `k` scores stretches beyond the first `2 k`, then
`lookup` returns the `k` best of all eligible words by the pair of scores. -/
theorem C206_ideal_ranking (hcf : ∀ w, cf (cf w) = cf w) {st : WL} (hr : st.Reachable cf)
    {agg : List ℚ → S} (hagg : MonotoneAgg agg) {w : List Char} {k : ℤ} (hw : w ≠ []) (hk : 0 < k)
    (hq : Clean (st.fold cf w)) (normalize : Bool)
    (hfail : ¬ LookupFails agg st.nList st.filterN normalize st.wordList k.toNat (st.fold cf w))
    (hties : ShortTies agg st.nList st.filterN normalize st.wordList k.toNat (st.fold cf w)) :
    st.lookup agg cf (.str w) (.int k) normalize =
      .ok ((idealScan agg st.nList st.filterN normalize st.wordList k.toNat (st.fold cf w)).map
        (fun v => (v, toLex (agg (scoreVec st.nList normalize (st.fold cf w) v),
          bigramSim normalize (st.fold cf w) v)))) := by
  rw [(C203_full_scan hcf hr hagg hw hk hq normalize hfail).1]
  congr 2
  have hp := discovered_perm st.nList st.filterN (st.fold cf w) (hr.inv hcf).nodupW
  unfold fullScan idealScan
  apply best_best_ideal (fun a b h => rankPair_le h)
  · intro a b h
    exact congrArg (fun x => (ofLex x).1) h
  · omega
  · intro v hv h1
    rw [(hp.filter _).length_eq] at h1 ⊢
    exact hties v (hp.mem_iff.1 hv) h1

/-- C206. Asking for fewer results returns the beginning of the longer list, if there is no long
tie at either cut. -/
theorem C206_prefix (hcf : ∀ w, cf (cf w) = cf w) {st : WL} (hr : st.Reachable cf)
    {agg : List ℚ → S} (hagg : MonotoneAgg agg) {word : PyVal} {k k' : ℤ} (hkk : k ≤ k')
    {normalize : Bool} {res res' : List (List Char × (S ×ₗ ℚ))}
    (h : st.lookup agg cf word (.int k) normalize = .ok res)
    (h' : st.lookup agg cf word (.int k') normalize = .ok res')
    (hties : ∀ w, word = .str w →
      ShortTies agg st.nList st.filterN normalize st.wordList k.toNat (st.fold cf w) ∧
      ShortTies agg st.nList st.filterN normalize st.wordList k'.toNat (st.fold cf w)) :
    res = res'.take k.toNat := by
  obtain ⟨w, j, rfl, hw, hj, hk, hq, _⟩ := lookup_result hcf hr hagg h
  injection hj with hj
  subst hj
  have hk' : 0 < k' := lt_of_lt_of_le hk hkk
  have fails : ∀ j : ℤ, 0 < j → ∀ r, st.lookup agg cf (.str w) (.int j) normalize = .ok r →
      ¬ LookupFails agg st.nList st.filterN normalize st.wordList j.toNat (st.fold cf w) := by
    intro j hj r hr1 hf
    rw [(lookup_spec (hr.inv hcf) hagg hw hj rfl hq normalize).1 hf] at hr1
    cases hr1
  have e1 := C206_ideal_ranking hcf hr hagg hw hk hq normalize (fails k hk _ h) (hties w rfl).1
  have e2 := C206_ideal_ranking hcf hr hagg hw hk' hq normalize (fails k' hk' _ h') (hties w rfl).2
  rw [h] at e1
  rw [h'] at e2
  injection e1 with e1
  injection e2 with e2
  rw [e1, e2, ← List.map_take]
  congr 1
  unfold idealScan
  rw [best_eq, best_eq, List.take_take]
  congr 1
  omega

example :
    ShortTies mean1 demo.nList demo.filterN false demo.wordList 1 "bananas".toList ∧
    ShortTies mean1 demo.nList demo.filterN false demo.wordList 3 "bananas".toList ∧
    plain (demo.lookup mean1 id (.str "bananas".toList) (.int 3) false) =
      .ok [("banana", 895 / 84, 163 / 14), ("bandana", 653 / 84, 68 / 7),
        ("cabana", 1861 / 420, 38 / 7)] := by
  decide +kernel

/-- C206. The condition is needed: with three words tied in the score, `top_k = 1` keeps only two
of them and returns "abcxy", while `top_k = 2` puts "abcxd" first, which has the same score and a
better bigram similarity. -/
theorem C206_long_ties :
    ∃ st : WL, st.Reachable id ∧
      plain (st.lookup mean1 id (.str "abcd".toList) (.int 1) false) =
        .ok [("abcxy", 47 / 12, 117 / 20)] ∧
      plain (st.lookup mean1 id (.str "abcd".toList) (.int 2) false) =
        .ok [("abcxd", 47 / 12, 157 / 20), ("abcxy", 47 / 12, 117 / 20)] := by
  refine ⟨({ demo₀ with nList := [3] } : WL).run id
    [.add (.str "abcxy".toList), .add (.str "abcxz".toList), .add (.str "abcxd".toList)],
    ⟨.iter [3], true, 0, { demo₀ with nList := [3] }, _, by decide +kernel, rfl⟩, ?_, ?_⟩
  all_goals decide +kernel

end Verif
