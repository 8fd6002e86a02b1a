import Verif.Fp.V5bErrorProps
import Verif.Fp.V3Props
import Verif.Index.V5bFindProps

/-!
# Property C248: with floats, `ApproxWordListV5b` and `ApproxWordListV3` find misspelt words and words with
a block in common with the query
-/

namespace Verif
namespace Fp

open GramSpec IndexSpec EditSpec

variable {R : Rounding} {cf : List Char → List Char} {S : Type} [LinearOrder S]

/-- **C248.** A lookup in an `ApproxWordListV5b` with floats does not raise, and finds a stored word that has a
block of characters in common with the query or is a few edits away: either the word is returned with its
computed score, or `top_k` words are whose computed scores are at least as large. -/
theorem C248_float_v5b_found (hcf : ∀ w, cf (cf w) = cf w) (hD : ExactDouble R) {st : WL}
    (hr : V5bReachableF R cf st) {agg : List ℚ → S} (hagg : MonotoneAggF R st.nList.length agg)
    {w v : List Char} {k : ℤ} (hw : w ≠ []) (hk : 0 < k)
    (hq0 : st.fold cf w ≠ []) (hq : Clean (st.fold cf w))
    (hl : ∀ v ∈ st.wordList, (st.fold cf w).length + v.length + 2 ≤ 2 ^ 53) (normalize : Bool)
    (hv : v ∈ st.wordList)
    (hb : (∃ x, x <:+: st.fold cf w ∧ x <:+: v ∧
        (st.filterN = 0 ∨ (2 ≤ st.filterN ∧ st.filterN ≤ x.length)) ∧
        ∃ n ∈ st.nList, 2 ≤ n ∧ n ≤ x.length) ∨
      ∃ e, Steps OneEdit e (st.fold cf w) v ∧
        (st.filterN = 0 ∨
          (2 ≤ st.filterN ∧ 2 * st.filterN * (e + 1) < ((st.fold cf w).length : ℤ) + v.length + 6)) ∧
        ∃ n ∈ st.nList, 2 ≤ n ∧ 2 * n * (e + 1) < ((st.fold cf w).length : ℤ) + v.length + 6) :
    ∃ res, v5bLookupF R agg cf st (.str w) (.int k) normalize = .ok res ∧
      ((v, agg (sumScoreVecF R st.nList normalize (st.fold cf w) v)) ∈ res ∨
        ((res.length : ℤ) = k ∧
          ∀ r ∈ res, agg (sumScoreVecF R st.nList normalize (st.fold cf w) v) ≤ r.2)) := by
  refine ⟨_, C226_float_v5b_full_scan hcf hD hr hagg hw hk hq0 hq hl normalize, ?_⟩
  have hel : Eligible st.nList st.filterN (st.fold cf w) v := by
    rcases hb with ⟨x, h1, h2, h3, h4⟩ | ⟨e, h1, h2, h3⟩
    · exact eligible_of_infix h1 h2 h3 h4
    · exact eligible_of_steps h1 h2 h3
  have hnd : st.wordList.Nodup := by
    obtain ⟨se, hse, hR⟩ := hr.rounded
    rw [hR.eqs.2.1]
    exact ((hse.reachable hcf).inv hcf).nodupW
  have hm : v ∈ discovered st.nList st.filterN (st.fold cf w) st.wordList := by
    rw [(discovered_perm st.nList st.filterN (st.fold cf w) hnd).mem_iff]
    unfold eligibleWords
    exact List.mem_filter.2 ⟨hv, by simpa using hel⟩
  rcases mem_best_or (fun v => agg (sumScoreVecF R st.nList normalize (st.fold cf w) v))
    (k := k.toNat) hm with h | ⟨h1, h2⟩
  · exact .inl (List.mem_map.2 ⟨v, h, rfl⟩)
  · right
    rw [List.length_map, h1]
    refine ⟨by omega, ?_⟩
    intro r hr'
    obtain ⟨b, hb, rfl⟩ := List.mem_map.1 hr'
    exact h2 b hb

/-- The binary64 list of the examples finds "abcdefgh" with the misspelt query "abcdefxh". -/
example : Steps OneEdit 1 "abcdefxh".toList "abcdefgh".toList ∧
    "abcdefgh".toList ∈ (listBF ["abcdefghi", "abcdefgh"]).wordList ∧
    (listBF ["abcdefghi", "abcdefgh"]).fold id "abcdefxh".toList = "abcdefxh".toList ∧
    (listBF ["abcdefghi", "abcdefgh"]).filterN = 0 ∧
    (∃ n ∈ (listBF ["abcdefghi", "abcdefgh"]).nList, 2 ≤ n ∧ 2 * n * 2 < (8 : ℤ) + 8 + 6) :=
  ⟨.step (.sub "abcdef".toList 'x' 'g' "h".toList) (.zero _), by decide +kernel⟩

/-- **C248.** The same for `ApproxWordListV3` with floats, for queries that divide by no zero. -/
theorem C248_float_v3_found (hcf : ∀ w, cf (cf w) = cf w) {st : V3} (hr : V3ReachableF R cf st)
    {agg : List ℚ → S} {w v : List Char} {topK : Option ℤ} (hw : w ≠ [])
    (hq : Clean (st.fold cf w)) (hv : v ∈ st.vocabulary)
    (hb : (∃ x, x <:+: st.fold cf w ∧ x <:+: v ∧ ∃ n ∈ st.nList, 2 ≤ n ∧ n ≤ x.length) ∨
      ∃ e, Steps OneEdit e (st.fold cf w) v ∧
        ∃ n ∈ st.nList, 2 ≤ n ∧ 2 * n * (e + 1) < ((st.fold cf w).length : ℤ) + v.length + 6)
    (hz : ∀ n ∈ st.nList, ((st.fold cf w).length : ℤ) + 2 ≠ n ∧ ((st.fold cf w).length : ℤ) + 3 ≠ n) :
    ∃ res, v3LookupF R agg cf st (.str w) topK = .ok res ∧
      ((∃ r ∈ res, r.1 = v ∧ r.2.1 = agg (scoreVec3F R st.nList (st.fold cf w) v)) ∨
        (∃ k, topK = some k ∧ 0 < k ∧ (res.length : ℤ) = k ∧
          ∀ r ∈ res, agg (scoreVec3F R st.nList (st.fold cf w) v) ≤ r.2.1)) := by
  have hM : Matches3 st.nList (st.fold cf w) v := by
    rcases hb with ⟨x, h1, h2, h3⟩ | ⟨e, h1, h2⟩
    · exact matches3_of_block h1 h2 h3
    · exact matches3_of_steps h1 h2
  have hm : v ∈ discovered3 st.nList (st.fold cf w) st.vocabulary := mem_discovered3.2 ⟨hv, hM⟩
  obtain ⟨se, hse, hR⟩ := hr.rounded
  have he := v3LookupF_exact (hse.inv hcf) hR agg hw rfl hq topK
  rw [← hR.eqs.1, ← hR.eqs.2.1] at he
  rw [if_neg (by rintro ⟨n, hn, h⟩; exact (hz n hn).1 h),
    if_neg (List.ne_nil_of_mem hm), if_neg (by rintro ⟨n, hn, h⟩; exact (hz n hn).2 h)] at he
  refine ⟨_, he, ?_⟩
  rcases mem_best_or (fun v => agg (scoreVec3F R st.nList (st.fold cf w) v))
    (k := limit3 topK (discovered3 st.nList (st.fold cf w) st.vocabulary).length) hm with h | ⟨h1, h2⟩
  · exact .inl ⟨_, List.mem_map.2 ⟨v, h, rfl⟩, rfl, rfl⟩
  · have hall : limit3 topK (discovered3 st.nList (st.fold cf w) st.vocabulary).length =
        (discovered3 st.nList (st.fold cf w) st.vocabulary).length →
        v ∈ best (fun v => agg (scoreVec3F R st.nList (st.fold cf w) v))
          (limit3 topK (discovered3 st.nList (st.fold cf w) st.vocabulary).length)
          (discovered3 st.nList (st.fold cf w) st.vocabulary) := by
      intro hl
      rw [hl, best_eq, List.take_of_length_le (by rw [length_sortDesc])]
      exact (sortDesc_perm _ _).mem_iff.2 hm
    cases topK with
    | none => exact .inl ⟨_, List.mem_map.2 ⟨v, hall rfl, rfl⟩, rfl, rfl⟩
    | some k =>
      by_cases hk : 0 < k
      · right
        refine ⟨k, rfl, hk, ?_, ?_⟩
        · rw [List.length_map, h1]
          unfold limit3
          simp only [if_pos hk]
          omega
        · intro r hr'
          obtain ⟨b, hb, rfl⟩ := List.mem_map.1 hr'
          exact h2 b hb
      · refine .inl ⟨_, List.mem_map.2 ⟨v, hall ?_, rfl⟩, rfl, rfl⟩
        unfold limit3
        simp only [if_neg hk]

/-- "bandana" has "ban" in common with the query "banal". -/
example : "bandana".toList ∈ (list3F [3] ["bandana"]).vocabulary ∧
    (list3F [3] ["bandana"]).fold id "banal".toList = "banal".toList ∧
    "ban".toList <:+: "banal".toList ∧ "ban".toList <:+: "bandana".toList ∧
    (∃ n ∈ (list3F [3] ["bandana"]).nList, 2 ≤ n ∧ n ≤ (3 : ℤ)) ∧
    ∀ n ∈ (list3F [3] ["bandana"]).nList, (5 : ℤ) + 2 ≠ n ∧ (5 : ℤ) + 3 ≠ n := by
  decide +kernel

end Fp
end Verif
