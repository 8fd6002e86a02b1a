import Verif.Index.EditProps
import Verif.Core.OverlapProps

/-!
# Property C213: word lists and common blocks of characters
-/

namespace Verif

open GramSpec IndexSpec

variable {cf : List Char → List Char} {S : Type} [LinearOrder S]

theorem shares_of_block {n : ℤ} (hn : 2 ≤ n) {q v x : List Char} (hq : x <:+: q) (hv : x <:+: v)
    (hl : n ≤ x.length) : Shares n q v := by
  have h1 : 0 < common n.toNat q v := lt_of_lt_of_le (by omega : 0 < x.length + 1 - n.toNat)
    (block_le_common (infix_bracketed hq) (infix_bracketed hv))
  obtain ⟨g, hg⟩ := Multiset.card_pos_iff_exists_mem.1 h1
  rw [Multiset.mem_inter] at hg
  refine ⟨g, ?_, ?_⟩ <;> (unfold gramsOf; rw [if_pos (by omega)])
  exacts [hg.1, hg.2]

/-- **C213.** The similarity of words with a common block of `L` characters is at least `L + 1 - n`,
for each size; the normalised one at least that divided by the number of n-grams of both words. -/
theorem C213_block_score {n : ℤ} (hn : 2 ≤ n) {q v x : List Char} (hq : x <:+: q) (hv : x <:+: v) :
    (x.length : ℚ) + 1 - n ≤ scoreN false n q v ∧
      (0 < denom n q v → ((x.length : ℚ) + 1 - n) / denom n q v ≤ scoreN true n q v) := by
  have hs : simN n q v = locSim (located n.toNat q) (located n.toNat v) := by
    rw [simN_eq, ← located_eq_locatedOf (by omega), ← located_eq_locatedOf (by omega),
      getNGrams_eq_gramsOf, getNGrams_eq_gramsOf]
  have h1 : (x.length : ℚ) + 1 - n ≤ simN n q v := by
    rw [hs]
    refine le_trans ?_ (common_le_locSim _ _ _)
    have := block_le_common (n := n.toNat) (infix_bracketed hq) (infix_bracketed hv)
    have h3 : (x.length : ℤ) + 1 - n ≤ (common n.toNat q v : ℤ) := by omega
    exact_mod_cast h3
  unfold scoreN
  refine ⟨by simpa using h1, fun hd => ?_⟩
  rw [if_pos rfl]
  have hdq : (0 : ℚ) < denom n q v := by exact_mod_cast hd
  exact div_le_div_of_nonneg_right h1 hdq.le

/-- **C213.** A lookup finds a stored word that has a block of characters in common with the query, if
the block is as long as the filter size and as one of the sizes: either the word is returned, or as
many words as asked for are returned that score at least as well. Its score is the aggregate of
scores that are at least those of `C213_block_score`. -/
theorem C213_block_found (hcf : ∀ w, cf (cf w) = cf w) {st : WL} (hr : st.Reachable cf)
    {agg : List ℚ → S} (hagg : MonotoneAgg agg) {w v x : List Char} {k : ℤ} {normalize : Bool}
    {res : List (List Char × (S ×ₗ ℚ))}
    (h : st.lookup agg cf (.str w) (.int k) normalize = .ok res)
    (hv : v ∈ st.vocabulary) (hxq : x <:+: st.fold cf w) (hxv : x <:+: v)
    (hfil : st.filterN = 0 ∨ (2 ≤ st.filterN ∧ st.filterN ≤ x.length))
    (hn : ∃ n ∈ st.nList, 2 ≤ n ∧ n ≤ x.length) :
    ∃ s, s = agg (scoreVec st.nList normalize (st.fold cf w) v) ∧
      ((∃ r ∈ res, r.1 = v ∧ (ofLex r.2).1 = s) ∨
        ((res.length : ℤ) = k ∧ ∀ r ∈ res, s ≤ (ofLex r.2).1)) ∧
      (normalize = false → (∀ n ∈ st.nList, 2 ≤ n) →
        agg (st.nList.map fun n : ℤ => max 0 ((x.length : ℚ) + 1 - n)) ≤ s) ∧
      (normalize = true → (∀ n ∈ st.nList, 2 ≤ n ∧ 0 < denom n (st.fold cf w) v) →
        agg (st.nList.map fun n : ℤ =>
          max 0 (((x.length : ℚ) + 1 - n) / denom n (st.fold cf w) v)) ≤ s) := by
  have hel : Eligible st.nList st.filterN (st.fold cf w) v := by
    refine ⟨fun h0 => ?_, ?_⟩
    · rcases hfil with hf | ⟨hf, hl⟩
      · exact absurd hf h0
      · exact shares_of_block hf hxq hxv hl
    · obtain ⟨n, hn, hn2, hl⟩ := hn
      exact ⟨n, hn, shares_of_block hn2 hxq hxv hl⟩
  have hnn : ∀ n, 0 ≤ simN n (st.fold cf w) v := fun n => by
    rw [simN_eq]
    exact locSim_nonneg _ _
  refine ⟨_, rfl, eligible_found hcf hr hagg h hv hel, ?_, ?_⟩
  · rintro rfl hall
    apply hagg
    unfold scoreVec
    rw [List.forall₂_map_left_iff, List.forall₂_map_right_iff, List.forall₂_same]
    intro n hn
    refine ⟨le_max_left _ _, max_le ?_ (C213_block_score (hall n hn) hxq hxv).1⟩
    simpa [scoreN] using hnn n
  · rintro rfl hall
    apply hagg
    unfold scoreVec
    rw [List.forall₂_map_left_iff, List.forall₂_map_right_iff, List.forall₂_same]
    intro n hn
    obtain ⟨h2, hd⟩ := hall n hn
    refine ⟨le_max_left _ _, max_le ?_ ((C213_block_score h2 hxq hxv).2 hd)⟩
    unfold scoreN
    rw [if_pos rfl]
    exact div_nonneg (hnn n) (by exact_mod_cast hd.le)

/-- In the list of the examples, "banana" and the query "cabanas" have "bana" in common. -/
example : demo.fold id "cabanas".toList = "cabanas".toList ∧ "banana".toList ∈ demo.vocabulary ∧
    "bana".toList <:+: "cabanas".toList ∧ "bana".toList <:+: "banana".toList ∧
    demo.filterN = 0 ∧ (2 : ℤ) ∈ demo.nList := by
  decide +kernel

end Verif
