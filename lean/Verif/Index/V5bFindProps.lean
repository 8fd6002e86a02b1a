import Verif.Index.V3RankProps
import Verif.Index.BlockProps

/-!
# Property C242: `ApproxWordListV5b` and `ApproxWordListV3` find misspelt words and words with a block
in common with the query
-/

namespace Verif

open GramSpec IndexSpec EditSpec

variable {cf : List Char → List Char} {S : Type} [LinearOrder S]

/-- An element is among the best, or as many are as asked for, all at least as good. -/
theorem mem_best_or {α : Type} (key : α → S) {k : ℕ} {l : List α} {a : α} (ha : a ∈ l) :
    a ∈ best key k l ∨ ((best key k l).length = k ∧ ∀ b ∈ best key k l, key a ≤ key b) := by
  rw [best_eq]
  by_cases hm : a ∈ (sortDesc key l).take k
  · exact .inl hm
  right
  have hs : a ∈ sortDesc key l := (sortDesc_perm key l).mem_iff.2 ha
  rw [← List.take_append_drop k (sortDesc key l)] at hs
  have hd : a ∈ (sortDesc key l).drop k := (List.mem_append.1 hs).resolve_left hm
  refine ⟨?_, ?_⟩
  · rw [List.length_take]
    have := List.length_pos_of_mem hd
    rw [List.length_drop] at this
    omega
  · intro b hb
    have hp := sortDesc_pairwise key l
    rw [← List.take_append_drop k (sortDesc key l), List.pairwise_append] at hp
    exact hp.2.2 b hb a hd

theorem eligible_of_steps {ns : List ℤ} {f : ℤ} {q v : List Char} {e : ℕ} (he : Steps OneEdit e q v)
    (hfil : f = 0 ∨ (2 ≤ f ∧ 2 * f * (e + 1) < (q.length : ℤ) + v.length + 6))
    (hn : ∃ n ∈ ns, 2 ≤ n ∧ 2 * n * (e + 1) < (q.length : ℤ) + v.length + 6) : Eligible ns f q v := by
  refine ⟨fun h0 => ?_, ?_⟩
  · rcases hfil with hf | ⟨hf, hl⟩
    · exact absurd hf h0
    · exact shares_of_steps hf he hl
  · obtain ⟨n, hn, hn2, hl⟩ := hn
    exact ⟨n, hn, shares_of_steps hn2 he hl⟩

theorem eligible_of_infix {ns : List ℤ} {f : ℤ} {q v x : List Char} (hxq : x <:+: q) (hxv : x <:+: v)
    (hfil : f = 0 ∨ (2 ≤ f ∧ f ≤ x.length)) (hn : ∃ n ∈ ns, 2 ≤ n ∧ n ≤ x.length) :
    Eligible ns f q v := by
  refine ⟨fun h0 => ?_, ?_⟩
  · rcases hfil with hf | ⟨hf, hl⟩
    · exact absurd hf h0
    · exact shares_of_block hf hxq hxv hl
  · obtain ⟨n, hn, hn2, hl⟩ := hn
    exact ⟨n, hn, shares_of_block hn2 hxq hxv hl⟩

/-- An eligible word is found by `ApproxWordListV5b`. -/
theorem v5b_eligible_found (hcf : ∀ w, cf (cf w) = cf w) {st : WL} (hr : st.V5bReachable cf)
    {agg : List ℚ → S} (hagg : MonotoneAgg agg) {w v : List Char} {k : ℤ} (hw : w ≠ []) (hk : 0 < k)
    (hq0 : st.fold cf w ≠ []) (hq : Clean (st.fold cf w)) (normalize : Bool) (hv : v ∈ st.wordList)
    (hel : Eligible st.nList st.filterN (st.fold cf w) v) :
    ∃ res, st.v5bLookup agg cf (.str w) (.int k) normalize = .ok res ∧
      ((v, agg (scoreVec st.nList normalize (st.fold cf w) v)) ∈ res ∨
        ((res.length : ℤ) = k ∧
          ∀ r ∈ res, agg (scoreVec st.nList normalize (st.fold cf w) v) ≤ r.2)) := by
  refine ⟨_, C221_v5b_full_scan hcf hr hagg hw hk hq0 hq normalize, ?_⟩
  have hm : v ∈ discovered st.nList st.filterN (st.fold cf w) st.wordList := by
    rw [(discovered_perm st.nList st.filterN (st.fold cf w)
      ((hr.reachable hcf).inv hcf).nodupW).mem_iff]
    unfold eligibleWords
    exact List.mem_filter.2 ⟨hv, by simpa using hel⟩
  rcases mem_best_or (fun v => agg (scoreVec st.nList normalize (st.fold cf w) v)) (k := k.toNat) hm with
    h | ⟨h1, h2⟩
  · exact .inl (List.mem_map.2 ⟨v, h, rfl⟩)
  · right
    rw [List.length_map, h1]
    refine ⟨by omega, ?_⟩
    intro r hr'
    obtain ⟨b, hb, rfl⟩ := List.mem_map.1 hr'
    exact h2 b hb

theorem nonneg_score {n : ℤ} {normalize : Bool} {q v : List Char}
    (hd : normalize = true → 0 < denom n q v) : 0 ≤ scoreN normalize n q v := by
  have h : 0 ≤ simN n q v := by
    rw [simN_eq]
    exact locSim_nonneg _ _
  unfold scoreN
  cases normalize with
  | true =>
    rw [if_pos rfl]
    exact div_nonneg h (by exact_mod_cast (hd rfl).le)
  | false => simpa using h

/-- **C242.** A lookup in an `ApproxWordListV5b` does not raise, and finds a stored word that has a block
of characters in common with the query, if the block is as long as the filter size and as one of the
sizes: either the word is returned, or `top_k` words that score at least as well. Its score is at least
the aggregate of the numbers `L + 1 - n` (normalised: divided by the number of n-grams of both words). -/
theorem C242_v5b_block_found (hcf : ∀ w, cf (cf w) = cf w) {st : WL} (hr : st.V5bReachable cf)
    {agg : List ℚ → S} (hagg : MonotoneAgg agg) {w v x : List Char} {k : ℤ} (hw : w ≠ []) (hk : 0 < k)
    (hq0 : st.fold cf w ≠ []) (hq : Clean (st.fold cf w)) (normalize : Bool) (hv : v ∈ st.wordList)
    (hxq : x <:+: st.fold cf w) (hxv : x <:+: v)
    (hfil : st.filterN = 0 ∨ (2 ≤ st.filterN ∧ st.filterN ≤ x.length))
    (hn : ∃ n ∈ st.nList, n ≤ x.length) (hn2 : ∀ n ∈ st.nList, 2 ≤ n)
    (hd : normalize = true → ∀ n ∈ st.nList, 0 < denom n (st.fold cf w) v) :
    ∃ res s, st.v5bLookup agg cf (.str w) (.int k) normalize = .ok res ∧
      ((v, s) ∈ res ∨ ((res.length : ℤ) = k ∧ ∀ r ∈ res, s ≤ r.2)) ∧
      agg (st.nList.map fun n : ℤ => max 0 (((x.length : ℚ) + 1 - n) /
        (if normalize then (denom n (st.fold cf w) v : ℚ) else 1))) ≤ s := by
  obtain ⟨n₀, hn₀, hl₀⟩ := hn
  obtain ⟨res, h1, h2⟩ := v5b_eligible_found hcf hr hagg hw hk hq0 hq normalize hv
    (eligible_of_infix hxq hxv hfil ⟨n₀, hn₀, hn2 n₀ hn₀, hl₀⟩)
  refine ⟨res, _, h1, h2, hagg _ _ ?_⟩
  unfold scoreVec
  rw [List.forall₂_map_left_iff, List.forall₂_map_right_iff, List.forall₂_same]
  intro n hn
  refine ⟨le_max_left _ _, max_le (nonneg_score fun h => hd h n hn) ?_⟩
  have hb := C213_block_score (hn2 n hn) hxq hxv
  cases normalize with
  | true => exact hb.2 (hd rfl n hn)
  | false => simpa using hb.1

/-- **C242.** The same for a stored word that is `e` edits away from the query: with `normalize=True` its
score is at least the aggregate of the bounds of C172. -/
theorem C242_v5b_typo_found (hcf : ∀ w, cf (cf w) = cf w) {st : WL} (hr : st.V5bReachable cf)
    {agg : List ℚ → S} (hagg : MonotoneAgg agg) {w v : List Char} {k : ℤ} (hw : w ≠ []) (hk : 0 < k)
    (hq0 : st.fold cf w ≠ []) (hq : Clean (st.fold cf w)) (hv : v ∈ st.wordList)
    {e : ℕ} (he : Steps OneEdit e (st.fold cf w) v)
    (hfil : st.filterN = 0 ∨
      (2 ≤ st.filterN ∧ 2 * st.filterN * (e + 1) < ((st.fold cf w).length : ℤ) + v.length + 6))
    (hn : ∃ n ∈ st.nList, 2 * n * (e + 1) < ((st.fold cf w).length : ℤ) + v.length + 6)
    (hn2 : ∀ n ∈ st.nList, 2 ≤ n) (hd : ∀ n ∈ st.nList, 0 < denom n (st.fold cf w) v) :
    ∃ res s, st.v5bLookup agg cf (.str w) (.int k) true = .ok res ∧
      ((v, s) ∈ res ∨ ((res.length : ℤ) = k ∧ ∀ r ∈ res, s ≤ r.2)) ∧
      agg (st.nList.map fun n => max 0 (1 - 2 * n * e / (denom n (st.fold cf w) v : ℚ))) ≤ s := by
  obtain ⟨n₀, hn₀, hl₀⟩ := hn
  obtain ⟨res, h1, h2⟩ := v5b_eligible_found hcf hr hagg hw hk hq0 hq true hv
    (eligible_of_steps he hfil ⟨n₀, hn₀, hn2 n₀ hn₀, hl₀⟩)
  refine ⟨res, _, h1, h2, hagg _ _ ?_⟩
  unfold scoreVec
  rw [List.forall₂_map_left_iff, List.forall₂_map_right_iff, List.forall₂_same]
  intro n hn
  exact ⟨le_max_left _ _, max_le (nonneg_score fun _ => hd n hn)
    (C172_typo_score (hn2 n hn) he (hd n hn))⟩

/-- In the list of the examples, "banana" has "bana" in common with the query "cabanas" and is one edit
away from the query "bananas". -/
example : demoB.fold id "cabanas".toList = "cabanas".toList ∧ "banana".toList ∈ demoB.wordList ∧
    "bana".toList <:+: "cabanas".toList ∧ "bana".toList <:+: "banana".toList ∧
    demoB.filterN = 0 ∧ (2 : ℤ) ∈ demoB.nList ∧ (∀ n ∈ demoB.nList, 2 ≤ n) ∧
    (∀ n ∈ demoB.nList, 0 < denom n "cabanas".toList "banana".toList) ∧
    ∀ n ∈ demoB.nList, 0 < denom n "bananas".toList "banana".toList := by
  decide +kernel

example : Steps OneEdit 1 "bananas".toList "banana".toList :=
  .step (.del "banana".toList 's' []) (.zero _)

/-! ### `ApproxWordListV3` -/

theorem matches3_of_block {ns : List ℤ} {q v x : List Char} (hq : x <:+: q) (hv : x <:+: v)
    (hn : ∃ n ∈ ns, 2 ≤ n ∧ n ≤ x.length) : Matches3 ns q v := by
  obtain ⟨n, hn, hn2, hl⟩ := hn
  obtain ⟨g, h1, h2⟩ := shares_of_block hn2 hq hv hl
  unfold gramsOf at h1
  rw [if_pos (by omega)] at h1
  exact ⟨n, hn, g, h1, h2⟩

theorem matches3_of_steps {ns : List ℤ} {q v : List Char} {e : ℕ} (he : Steps OneEdit e q v)
    (hn : ∃ n ∈ ns, 2 ≤ n ∧ 2 * n * (e + 1) < (q.length : ℤ) + v.length + 6) : Matches3 ns q v := by
  obtain ⟨n, hn, hn2, hl⟩ := hn
  obtain ⟨g, h1, h2⟩ := shares_of_steps hn2 he hl
  unfold gramsOf at h1
  rw [if_pos (by omega)] at h1
  exact ⟨n, hn, g, h1, h2⟩

/-- **C242.** `ApproxWordListV3` finds a stored word that has a block of characters in common with the
query, at least as long as one of the sizes, or is `e` edits away from a query that is long enough:
a lookup without `top_k` that does not raise returns it, one with a positive `top_k` returns it or
`top_k` words that score at least as well. -/
theorem C242_v3_found (hcf : ∀ w, cf (cf w) = cf w) {st : V3} (hr : st.Reachable cf)
    {agg : List ℚ → S} {w v : List Char} {topK : Option ℤ} (hw : w ≠ [])
    (hq : Clean (st.fold cf w)) (hv : v ∈ st.vocabulary)
    (hb : (∃ x, x <:+: st.fold cf w ∧ x <:+: v ∧ ∃ n ∈ st.nList, 2 ≤ n ∧ n ≤ x.length) ∨
      ∃ e, Steps OneEdit e (st.fold cf w) v ∧
        ∃ n ∈ st.nList, 2 ≤ n ∧ 2 * n * (e + 1) < ((st.fold cf w).length : ℤ) + v.length + 6)
    (hz : ∀ n ∈ st.nList, ((st.fold cf w).length : ℤ) + 2 ≠ n ∧ ((st.fold cf w).length : ℤ) + 3 ≠ n) :
    ∃ res, st.lookup agg cf (.str w) topK = .ok res ∧
      ((∃ r ∈ res, r.1 = v ∧ r.2.1 = agg (scoreVec3 st.nList (st.fold cf w) v)) ∨
        (∃ k, topK = some k ∧ 0 < k ∧ (res.length : ℤ) = k ∧
          ∀ r ∈ res, agg (scoreVec3 st.nList (st.fold cf w) v) ≤ r.2.1)) := by
  have hM : Matches3 st.nList (st.fold cf w) v := by
    rcases hb with ⟨x, h1, h2, h3⟩ | ⟨e, h1, h2⟩
    · exact matches3_of_block h1 h2 h3
    · exact matches3_of_steps h1 h2
  have hm : v ∈ discovered3 st.nList (st.fold cf w) st.vocabulary := mem_discovered3.2 ⟨hv, hM⟩
  have he := V3.lookup_exact (hr.inv hcf) agg hw rfl hq topK
  rw [if_neg (by rintro ⟨n, hn, h⟩; exact (hz n hn).1 h),
    if_neg (List.ne_nil_of_mem hm), if_neg (by rintro ⟨n, hn, h⟩; exact (hz n hn).2 h)] at he
  refine ⟨_, he, ?_⟩
  rcases mem_best_or (fun v => agg (scoreVec3 st.nList (st.fold cf w) v))
    (k := limit3 topK (discovered3 st.nList (st.fold cf w) st.vocabulary).length) hm with h | ⟨h1, h2⟩
  · exact .inl ⟨_, List.mem_map.2 ⟨v, h, rfl⟩, rfl, rfl⟩
  · have hall : limit3 topK (discovered3 st.nList (st.fold cf w) st.vocabulary).length =
        (discovered3 st.nList (st.fold cf w) st.vocabulary).length →
        v ∈ best (fun v => agg (scoreVec3 st.nList (st.fold cf w) v))
          (limit3 topK (discovered3 st.nList (st.fold cf w) st.vocabulary).length)
          (discovered3 st.nList (st.fold cf w) st.vocabulary) := by
      intro hl
      rw [hl, best_eq, List.take_of_length_le (by rw [length_sortDesc])]
      exact (sortDesc_perm _ _).mem_iff.2 hm
    cases topK with
    | none => exact .inl ⟨_, List.mem_map.2 ⟨v, hall rfl, rfl⟩, rfl, rfl⟩
    | some k =>
      by_cases hk : 0 < k
      · right
        refine ⟨k, rfl, hk, ?_, ?_⟩
        · rw [List.length_map, h1]
          unfold limit3
          simp only [if_pos hk]
          omega
        · intro r hr'
          obtain ⟨b, hb, rfl⟩ := List.mem_map.1 hr'
          exact h2 b hb
      · refine .inl ⟨_, List.mem_map.2 ⟨v, hall ?_, rfl⟩, rfl, rfl⟩
        unfold limit3
        simp only [if_neg hk]

/-- In the list of the examples, "abcabxxbcabc" has "abcab" in common with the query "xabcab". -/
example : "abcabxxbcabc".toList ∈ demo3.vocabulary ∧ demo3.fold id "xabcab".toList = "xabcab".toList ∧
    "abcab".toList <:+: "xabcab".toList ∧ "abcab".toList <:+: "abcabxxbcabc".toList ∧
    (∃ n ∈ demo3.nList, 2 ≤ n ∧ n ≤ 5) ∧ ∀ n ∈ demo3.nList, (6 : ℤ) + 2 ≠ n ∧ (6 : ℤ) + 3 ≠ n := by
  decide +kernel

end Verif
