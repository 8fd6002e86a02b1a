import Verif.Index.Props
import Verif.WordSet.EditProps

/-!
# Property C172: misspelt queries of a word list
-/

namespace Verif

open GramSpec IndexSpec EditSpec

variable {cf : List Char → List Char} {S : Type} [LinearOrder S]

theorem shares_of_steps {n : ℤ} (hn : 2 ≤ n) {e : ℕ} {q v : List Char} (h : Steps OneEdit e q v)
    (hl : 2 * n * (e + 1) < q.length + v.length + 6) : Shares n q v := by
  have h1 := locDist_steps (fun u v => locDist_oneEdit (n := n.toNat) (by omega)) h
  have hz : ((n.toNat : ℕ) : ℤ) = n := by omega
  obtain ⟨g, h2, h3⟩ := shared_gram_of_locDist (n := n.toNat) (b := 2 * e * n.toNat)
    (h1.trans (le_of_eq (by push_cast; ring))) (by
      have : 2 * (n.toNat : ℤ) * (e + 1) < q.length + v.length + 6 := by rw [hz]; exact hl
      have h' : 2 * n.toNat * (e + 1) < q.length + v.length + 6 := by exact_mod_cast this
      have : 2 * n.toNat * (e + 1) = 2 * e * n.toNat + 2 * n.toNat := by ring
      omega)
  refine ⟨g, ?_, ?_⟩ <;> (unfold gramsOf; rw [if_pos (by omega)]; assumption)

/-- **C172.** The normalised similarity of words `e` edits apart is at least
`1 - 2 * n * e / (number of n-grams of both words)`, for each configured size. -/
theorem C172_typo_score {n : ℤ} (hn : 2 ≤ n) {e : ℕ} {q v : List Char} (h : Steps OneEdit e q v)
    (hd : 0 < denom n q v) :
    1 - 2 * n * e / (denom n q v : ℚ) ≤ scoreN true n q v := by
  have h1 := locDist_steps (fun u v => locDist_oneEdit (n := n.toNat) (by omega)) h
  rw [toNat_cast hn] at h1
  have hs : simN n q v = locSim (located n.toNat q) (located n.toNat v) := by
    rw [simN_eq, ← located_eq_locatedOf (by omega), ← located_eq_locatedOf (by omega),
      getNGrams_eq_gramsOf, getNGrams_eq_gramsOf]
  have hde : (denom n q v : ℚ) = countInt n q + countInt n v := by
    have : denom n q v = countInt n q + countInt n v := by
      unfold denom countInt; rw [if_pos (by omega)]; ring
    exact_mod_cast this
  have hdq : (0 : ℚ) < denom n q v := by exact_mod_cast hd
  have c1 := countInt_le_count n hn q
  have c2 := countInt_le_count n hn v
  unfold locDist at h1
  rw [length_located, length_located, ← hs] at h1
  unfold scoreN
  rw [if_pos rfl, sub_le_iff_le_add, ← add_div, le_div_iff₀ hdq, one_mul, hde]
  linarith

/-- A stored word that shares n-grams with the query is returned, unless as many words as asked
for are returned that score at least as well. -/
theorem eligible_found (hcf : ∀ w, cf (cf w) = cf w) {st : WL} (hr : st.Reachable cf)
    {agg : List ℚ → S} (hagg : MonotoneAgg agg) {w v : List Char} {k : ℤ} {normalize : Bool}
    {res : List (List Char × (S ×ₗ ℚ))}
    (h : st.lookup agg cf (.str w) (.int k) normalize = .ok res) (hv : v ∈ st.vocabulary)
    (hel : Eligible st.nList st.filterN (st.fold cf w) v) :
    (∃ r ∈ res, r.1 = v ∧ (ofLex r.2).1 = agg (scoreVec st.nList normalize (st.fold cf w) v)) ∨
      ((res.length : ℤ) = k ∧
        ∀ r ∈ res, agg (scoreVec st.nList normalize (st.fold cf w) v) ≤ (ofLex r.2).1) := by
  obtain ⟨w', k', hw', _, hk', hk0, _, hres⟩ := lookup_result hcf hr hagg h
  injection hw' with hw'
  injection hk' with hk'
  subst hw' hk'
  have hp : st.vocabulary.Perm st.wordList := List.perm_insertionSort _ _
  have hvw := hp.mem_iff.1 hv
  by_cases hm : v ∈ res.map Prod.fst
  · left
    obtain ⟨r, hr, rfl⟩ := List.mem_map.1 hm
    exact ⟨r, hr, rfl, (hres.scores r hr).2.2.1⟩
  · right
    refine ⟨?_, hres.best v hvw hel hm⟩
    have hsub : (v :: res.map Prod.fst).Subperm
        (eligibleWords st.nList st.filterN (st.fold cf w) st.wordList) := by
      apply List.Nodup.subperm (List.nodup_cons.2 ⟨hm, hres.nodup⟩)
      intro x hx
      unfold eligibleWords
      rw [List.mem_filter]
      rcases List.mem_cons.1 hx with rfl | hx
      · exact ⟨hvw, by simpa using hel⟩
      · obtain ⟨r, hr, rfl⟩ := List.mem_map.1 hx
        have := hres.scores r hr
        exact ⟨this.1, by simpa using this.2.1⟩
    have h1 := hsub.length_le
    have h2 := hres.length
    simp only [List.length_cons, List.length_map] at h1
    omega

/-- **C172.** A lookup finds a stored word that is `e` edits away from the query, provided the two
are long enough for the filter and for one of the sizes: either it is returned, or as many words as
asked for are returned that score at least as well. With `normalize=True` its score is at least
the aggregate of the bounds of `C172_typo_score`. -/
theorem C172_typo_found (hcf : ∀ w, cf (cf w) = cf w) {st : WL} (hr : st.Reachable cf)
    {agg : List ℚ → S} (hagg : MonotoneAgg agg) {w v : List Char} {k : ℤ} {normalize : Bool}
    {res : List (List Char × (S ×ₗ ℚ))}
    (h : st.lookup agg cf (.str w) (.int k) normalize = .ok res)
    (hv : v ∈ st.vocabulary) {e : ℕ} (he : Steps OneEdit e (st.fold cf w) v)
    (hfil : st.filterN = 0 ∨
      (2 ≤ st.filterN ∧ 2 * st.filterN * (e + 1) < ((st.fold cf w).length : ℤ) + v.length + 6))
    (hn : ∃ n ∈ st.nList, 2 ≤ n ∧ 2 * n * (e + 1) < ((st.fold cf w).length : ℤ) + v.length + 6) :
    ∃ s, s = agg (scoreVec st.nList normalize (st.fold cf w) v) ∧
      ((∃ r ∈ res, r.1 = v ∧ (ofLex r.2).1 = s) ∨
        ((res.length : ℤ) = k ∧ ∀ r ∈ res, s ≤ (ofLex r.2).1)) ∧
      (normalize = true → (∀ n ∈ st.nList, 2 ≤ n ∧ 0 < denom n (st.fold cf w) v) →
        agg (st.nList.map fun n => max 0 (1 - 2 * n * e / (denom n (st.fold cf w) v : ℚ))) ≤ s) := by
  have hel : Eligible st.nList st.filterN (st.fold cf w) v := by
    refine ⟨fun h0 => ?_, ?_⟩
    · rcases hfil with hf | ⟨hf, hl⟩
      · exact absurd hf h0
      · exact shares_of_steps hf he hl
    · obtain ⟨n, hn, hn2, hl⟩ := hn
      exact ⟨n, hn, shares_of_steps hn2 he hl⟩
  refine ⟨_, rfl, eligible_found hcf hr hagg h hv hel, ?_⟩
  · intro hnorm hall
    subst hnorm
    apply hagg
    unfold scoreVec
    have : ∀ l : List ℤ, (∀ n ∈ l, 2 ≤ n ∧ 0 < denom n (st.fold cf w) v) →
        List.Forall₂ (fun a b : ℚ => 0 ≤ a ∧ a ≤ b)
          (l.map fun n => max 0 (1 - 2 * n * e / (denom n (st.fold cf w) v : ℚ)))
          (l.map fun n => scoreN true n (st.fold cf w) v) := by
      intro l hl
      induction l with
      | nil => exact .nil
      | cons n l ih =>
        obtain ⟨h2, hd⟩ := hl n (by simp)
        refine .cons ⟨le_max_left _ _, max_le ?_ (C172_typo_score h2 he hd)⟩
          (ih fun m hm => hl m (List.mem_cons_of_mem _ hm))
        show 0 ≤ scoreN true n (st.fold cf w) v
        unfold scoreN
        rw [if_pos rfl]
        apply div_nonneg _ (by exact_mod_cast hd.le)
        rw [simN_eq]
        exact locSim_nonneg _ _
    exact this st.nList hall

/-- In the list of the examples, "banana" is one edit away from the query "bananas". -/
example : demo.fold id "bananas".toList = "bananas".toList ∧ "banana".toList ∈ demo.vocabulary ∧
    Steps OneEdit 1 "bananas".toList "banana".toList ∧ demo.filterN = 0 ∧ (2 : ℤ) ∈ demo.nList :=
  ⟨by decide +kernel, by decide +kernel, .step (.del "banana".toList 's' []) (.zero _),
    by decide +kernel, by decide +kernel⟩

end Verif
