import Verif.Index.RankProps

/-!
# Property C209: how the answers of a word list change when a word is added
-/

namespace Verif

open GramSpec IndexSpec

variable {cf : List Char → List Char} {S : Type} [LinearOrder S]

theorem discovered_filter (ns : List ℤ) (filterN : ℤ) (q : List Char) (words : List (List Char))
    (p : List Char → Bool) :
    discovered ns filterN q (words.filter p) = (discovered ns filterN q words).filter p := by
  unfold discovered
  rw [← firsts_filter, List.filter_flatMap]
  congr 1
  apply List.flatMap_congr
  intro n _
  rw [List.filter_flatMap]
  apply List.flatMap_congr
  intro g _
  unfold eligibleWords
  rw [List.filter_comm p, List.filter_comm p]

/-- C209. If there is no long tie at the cut (see C206), a new word changes nothing but its own
appearance: the other words keep their scores and their order. -/
theorem C209_added_word (hcf : ∀ w, cf (cf w) = cf w) {st st' : WL} (hr : st.Reachable cf)
    {agg : List ℚ → S} (hagg : MonotoneAgg agg) {v : List Char}
    (hadd : st.addWord cf (.str v) = (st', .ok ())) (hnew : st.fold cf v ∉ st.vocabulary)
    {word : PyVal} {k : ℤ} {normalize : Bool} {res res' : List (List Char × (S ×ₗ ℚ))}
    (h : st.lookup agg cf word (.int k) normalize = .ok res)
    (h' : st'.lookup agg cf word (.int (k + 1)) normalize = .ok res')
    (hties : ∀ w, word = .str w →
      ShortTies agg st.nList st.filterN normalize st.wordList k.toNat (st.fold cf w) ∧
      ShortTies agg st'.nList st'.filterN normalize st'.wordList (k + 1).toNat (st'.fold cf w)) :
    res = (res'.filter (fun r => r.1 ≠ st.fold cf v)).take k.toNat := by
  have hi := hr.inv hcf
  have hnew' : st.fold cf v ∉ st.wordList := fun hc =>
    hnew ((List.perm_insertionSort _ _).mem_iff.2 hc)
  have hst' : (st.addWord cf (.str v)).1 = st' := by rw [hadd]
  have hr' : st'.Reachable cf := by
    obtain ⟨n, cs, fn, st₀, ops, h0, rfl⟩ := hr
    refine ⟨n, cs, fn, st₀, ops ++ [.add (.str v)], h0, ?_⟩
    rw [run_append_singleton, ← hst']; rfl
  obtain ⟨c1, c2, c3⟩ := config_addWord hcf hi (.str v)
  rw [hst'] at c1 c2 c3
  have hws : st'.wordList = st.wordList ++ [st.fold cf v] := by
    have hc := addWord_cases hcf hi (.str v)
    rw [hadd] at hc
    dsimp only at hc
    by_cases h1 : v = []
    · rw [if_pos h1] at hc; cases hc
    rw [if_neg h1, if_neg hnew'] at hc
    by_cases h2 : ¬ ('\x02' ∉ st.fold cf v ∧ '\x03' ∉ st.fold cf v)
    · rw [if_pos h2] at hc; cases hc
    rw [if_neg h2] at hc
    by_cases h3 : st.fold cf v = []
    · rw [if_pos h3] at hc; cases hc
    rw [if_neg h3] at hc
    injection hc with hc
    rw [hc, wordList_inserted]
  obtain ⟨w, j, rfl, hw, hj, hk, hq, _⟩ := lookup_result hcf hr hagg h
  injection hj with hj
  subst hj
  have hf : st'.fold cf w = st.fold cf w := by unfold WL.fold; rw [c3]
  have fails : ∀ {s : WL}, s.Reachable cf → ∀ j : ℤ, 0 < j → ∀ r,
      s.fold cf w = st.fold cf w → s.lookup agg cf (.str w) (.int j) normalize = .ok r →
      ¬ LookupFails agg s.nList s.filterN normalize s.wordList j.toNat (s.fold cf w) := by
    intro s hs j hj r hfs hr1 hf
    rw [(lookup_spec (hs.inv hcf) hagg hw hj rfl (by rw [hfs]; exact hq) normalize).1 hf] at hr1
    cases hr1
  have e1 := C206_ideal_ranking hcf hr hagg hw hk hq normalize (fails hr k hk _ rfl h)
    (hties w rfl).1
  have e2 := C206_ideal_ranking hcf hr' hagg hw (show 0 < k + 1 by omega) (by rw [hf]; exact hq)
    normalize (fails hr' (k + 1) (by omega) _ hf h') (hties w rfl).2
  rw [h] at e1
  rw [h'] at e2
  injection e1 with e1
  injection e2 with e2
  rw [e1, e2, hf, c1, c2, List.filter_map, ← List.map_take]
  congr 1
  have hfil : st.wordList = st'.wordList.filter (fun u => u ≠ st.fold cf v) := by
    rw [hws, List.filter_append, List.filter_eq_self.2]
    · simp
    · intro u hu
      simp only [ne_eq, decide_not, Bool.not_eq_true', decide_eq_false_iff_not]
      rintro rfl
      exact hnew' hu
  rw [show (k + 1).toNat = k.toNat + 1 by omega]
  unfold idealScan
  conv_lhs => rw [hfil, discovered_filter, best_eq, sortDesc_filter]
  rw [take_filter_of_one, best_eq]
  · rfl
  · rw [((sortDesc_perm _ _).filter _).length_eq]
    have hn := nodup_discovered st.nList st.filterN (st.fold cf w) st'.wordList
    have e : (discovered st.nList st.filterN (st.fold cf w) st'.wordList).filter
        (fun x => !decide (x ≠ st.fold cf v)) =
        (discovered st.nList st.filterN (st.fold cf w) st'.wordList).filter
          (fun x => x == st.fold cf v) := by
      apply List.filter_congr
      intro x _
      simp [beq_eq_decide]
    rw [e, ← List.countP_eq_length_filter]
    exact List.nodup_iff_count_le_one.1 hn _

/-- Adding "bandanas" to the list of the examples. -/
example :
    let st' := demo.run id [.add (.str "bandanas".toList)]
    demo.addWord id (.str "bandanas".toList) = (st', .ok ()) ∧
    "bandanas".toList ∉ demo.vocabulary ∧
    ShortTies mean1 demo.nList demo.filterN false demo.wordList 2 "bananas".toList ∧
    ShortTies mean1 st'.nList st'.filterN false st'.wordList 3 "bananas".toList ∧
    (plain (demo.lookup mean1 id (.str "bananas".toList) (.int 2) false)).map (List.map Prod.fst) =
      .ok ["banana", "bandana"] ∧
    (plain (st'.lookup mean1 id (.str "bananas".toList) (.int 3) false)).map (List.map Prod.fst) =
      .ok ["bandanas", "banana", "bandana"] := by
  decide +kernel

/-- C209. With a long tie, a new word can change the answer without being part of it: adding
"abcuvwxy" replaces the answer "acdvwdef" by "ucdvwdef", which has the same score and a lower
bigram similarity. -/
theorem C209_displaced :
    ∃ st : WL, st.Reachable id ∧ (st.addWord id (.str "abcuvwxy".toList)).2 = .ok () ∧
      plain (st.lookup mean1 id (.str "abcdef".toList) (.int 1) false) =
        .ok [("acdvwdef", 138 / 35, 77 / 8)] ∧
      plain ((st.addWord id (.str "abcuvwxy".toList)).1.lookup mean1 id (.str "abcdef".toList)
        (.int 1) false) = .ok [("ucdvwdef", 138 / 35, 61 / 8)] := by
  refine ⟨({ demo₀ with nList := [3] } : WL).run id
    [.add (.str "ucdvwdef".toList), .add (.str "acdvwdef".toList)],
    ⟨.iter [3], true, 0, { demo₀ with nList := [3] }, _, by decide +kernel, rfl⟩, ?_, ?_, ?_⟩
  all_goals decide +kernel

end Verif
