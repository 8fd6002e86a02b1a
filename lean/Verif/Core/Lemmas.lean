import Verif.Core.Model
import Verif.Core.Spec
import Verif.Core.Located
import Mathlib.Algebra.BigOperators.Group.List.Lemmas
import Mathlib.Algebra.BigOperators.Group.Finset.Basic
import Mathlib.Algebra.Order.Field.Basic

/-!
# Lemmas connecting the model of `nmd_core` with located n-grams
-/

namespace Verif

open EmdSpec GramSpec

/-- The n-grams of a word with their relative positions. -/
def located (n : ℕ) (w : List Char) : List (List Char × ℚ) :=
  (List.range (count n w)).map (fun i => (gramAt n w i, relPos (count n w) i))

theorem length_located (n : ℕ) (w : List Char) : (located n w).length = count n w := by
  simp [located]

theorem locs_located (n : ℕ) (w : List Char) (g : List Char) :
    Dict.locs (located n w) g = positionsOf n w g := by
  simp only [Dict.locs, located, positionsOf, List.filter_map, List.map_map]
  rfl

theorem gramSet_located (n : ℕ) (w : List Char) :
    gramSet (located n w) = (grams n w).toFinset := by
  simp only [gramSet, located, grams, List.map_map]
  rfl

theorem length_bracketed (w : List Char) : (bracketed w).length = w.length + 2 := by
  simp [bracketed]

theorem count_eq (n : ℕ) (w : List Char) : count n w = w.length + 3 - n := by
  simp [count, length_bracketed]

theorem pad_eq (w : List Char) : pad w = bracketed w := rfl

theorem relPos_nonneg (m i : ℕ) : 0 ≤ relPos m i :=
  div_nonneg (Nat.cast_nonneg i) (le_trans zero_le_one (le_max_left _ _))

theorem relPos_le_one {m i : ℕ} (h : i < m) : relPos m i ≤ 1 := by
  unfold relPos
  rw [div_le_one (lt_of_lt_of_le zero_lt_one (le_max_left _ _))]
  apply le_max_of_le_right
  have : (i : ℚ) + 1 ≤ m := by exact_mod_cast h
  linarith

theorem relPos_inj {m i j : ℕ} (h : relPos m i = relPos m j) : i = j := by
  unfold relPos at h
  have h0 : (0 : ℚ) < max 1 ((m : ℚ) - 1) := lt_of_lt_of_le zero_lt_one (le_max_left _ _)
  rw [div_left_inj' h0.ne'] at h
  exact_mod_cast h

theorem unitLocated_located (n : ℕ) (w : List Char) : UnitLocated (located n w) := by
  intro p hp
  simp only [located, List.mem_map, List.mem_range] at hp
  obtain ⟨i, hi, rfl⟩ := hp
  exact ⟨relPos_nonneg _ _, relPos_le_one hi⟩

theorem toNat_numGramsInt (w : List Char) (n : ℤ) (hn : 2 ≤ n) :
    (numGramsInt (pad w) n).toNat = count n.toNat w := by
  rw [count_eq, numGramsInt, pad_eq, length_bracketed]
  omega

theorem nGramLocations_eq (w : List Char) (n : ℤ) (hn : 2 ≤ n) :
    nGramLocations (pad w) n = Dict.group (located n.toNat w) := by
  unfold nGramLocations Dict.group located
  rw [toNat_numGramsInt w n hn, List.foldl_map]
  apply List.foldl_ext
  intro d i hi
  rw [List.mem_range] at hi
  have hc : ((numGramsInt (pad w) n : ℤ) : ℚ) = (count n.toNat w : ℚ) := by
    have h1 := toNat_numGramsInt w n hn
    have h2 : (numGramsInt (pad w) n) = ((count n.toNat w : ℕ) : ℤ) := by omega
    rw [h2]; simp
  simp only [pySlice, gramAt, relPos, pad_eq, Nat.add_sub_cancel_left] at hc ⊢
  rw [hc]

theorem foldl_add_eq_sum {α : Type} (f : α → ℚ) (l : List α) (s : ℚ) :
    l.foldl (fun s a => s + f a) s = s + (l.map f).sum := by
  induction l generalizing s with
  | nil => simp
  | cons a l ih => simp [ih]; ring

theorem similarityLoop_group (L₁ L₂ : List (List Char × ℚ)) :
    similarityLoop (Dict.group L₁) (Dict.group L₂) = locSim L₁ L₂ := by
  have hstep : similarityLoop (Dict.group L₁) (Dict.group L₂) =
      (Dict.group L₁).foldl (fun s item => s + contrib item.2 (Dict.locs L₂ item.1)) 0 := by
    unfold similarityLoop
    apply List.foldl_ext
    intro s item _
    rw [Dict.get?_group]
    by_cases h : item.1 ∈ L₂.map Prod.fst
    · simp only [h, if_true, contrib]; ring
    · simp [h, Dict.locs_eq_nil.2 h]
  rw [hstep, foldl_add_eq_sum, zero_add, Dict.group_eq_map L₁, List.map_map]
  have hset : (Dict.keys (Dict.group L₁)).toFinset = gramSet L₁ := by
    ext g
    rw [List.mem_toFinset, Dict.mem_keys_group, mem_gramSet]
  rw [locSim_eq_sum (Finset.inter_subset_left : gramSet L₁ ∩ gramSet L₂ ⊆ gramSet L₁), ← hset,
    List.sum_toFinset _ (Dict.nodup_keys_group L₁)]
  rfl

theorem similarity_eq (w₁ w₂ : List Char) (n : ℤ) (hn : 2 ≤ n) :
    similarityLoop (nGramLocations (pad w₁) n) (nGramLocations (pad w₂) n) =
      locSim (located n.toNat w₁) (located n.toNat w₂) := by
  rw [nGramLocations_eq _ _ hn, nGramLocations_eq _ _ hn, similarityLoop_group]

theorem checkWord_str {w : List Char} (h : Clean w) : checkWord (.str w) = .ok w := by
  have h1 : '\x02' ∉ w := h.1
  have h2 : '\x03' ∉ w := h.2
  simp [checkWord, h1, h2]

theorem checkN_int {n : ℤ} (h : 2 ≤ n) : checkN (.int n) = .ok n := by
  simp [checkN, not_lt.2 h]

/-- Integer n-gram count as used by the code. -/
def countInt (n : ℤ) (w : List Char) : ℤ := (w.length : ℤ) + 3 - n

theorem numGramsInt_eq (w : List Char) (n : ℤ) : numGramsInt (pad w) n = countInt n w := by
  rw [numGramsInt, pad_eq, length_bracketed, countInt]; push_cast; ring

/-- Value of `ngram_movers_distance` on valid arguments. -/
theorem nmd_valid {w₁ w₂ : List Char} (h₁ : Clean w₁) (h₂ : Clean w₂) {n : ℤ} (hn : 2 ≤ n)
    (invert normalize : Bool) :
    nmd (.str w₁) (.str w₂) (.int n) invert normalize =
      (let s := locSim (located n.toNat w₁) (located n.toNat w₂)
       let t : ℚ := countInt n w₁ + countInt n w₂
       let out : ℚ := if invert then s else t - s
       if normalize then
         if countInt n w₁ + countInt n w₂ = 0 then .error .zeroDivisionError else .ok (out / t)
       else .ok out) := by
  simp only [nmd, checkWord_str h₁, checkWord_str h₂, checkN_int hn, bind, Except.bind, nmdChecked,
    similarity_eq _ _ _ hn, numGramsInt_eq]

theorem countInt_eq_count {n : ℤ} {w : List Char} (hn : 2 ≤ n) (h : n ≤ (w.length : ℤ) + 3) :
    countInt n w = (count n.toNat w : ℤ) := by
  rw [countInt, count_eq]; omega

theorem located_eq_nil {n : ℤ} {w : List Char} (h : countInt n w ≤ 0) :
    located n.toNat w = [] := by
  have : count n.toNat w = 0 := by rw [count_eq]; unfold countInt at h; omega
  simp [located, this]

/-- The located n-grams determine the word. -/
theorem located_perm_inj {n : ℕ} {w₁ w₂ : List Char} (hn : 1 ≤ n) (h₁ : n ≤ w₁.length + 2)
    (h : (located n w₁).Perm (located n w₂)) : w₁ = w₂ := by
  have hl : count n w₁ = count n w₂ := by
    simpa [length_located] using h.length_eq
  have hlen : w₁.length = w₂.length := by
    rw [count_eq, count_eq] at hl; omega
  have hg : ∀ i, i < count n w₁ → gramAt n w₁ i = gramAt n w₂ i := by
    intro i hi
    have hm : (gramAt n w₁ i, relPos (count n w₁) i) ∈ located n w₂ := by
      rw [← h.mem_iff]
      exact List.mem_map.2 ⟨i, List.mem_range.2 hi, rfl⟩
    obtain ⟨j, _, e⟩ := List.mem_map.1 hm
    injection e with e1 e2
    rw [← hl] at e2
    rw [← e1, relPos_inj e2]
  have hb : bracketed w₁ = bracketed w₂ := by
    apply List.ext_getElem?
    intro t
    by_cases ht : t < w₁.length + 2
    · -- a window containing position t
      have key : ∀ w : List Char, w.length = w₁.length → ∀ i, i ≤ t → t < i + n →
          (gramAt n w i)[t - i]? = (bracketed w)[t]? := by
        intro w hw i hi hti
        unfold gramAt
        rw [List.getElem?_take, if_pos (by omega), List.getElem?_drop]
        congr 1; omega
      have hc := count_eq n w₁
      have : ∃ i, i < count n w₁ ∧ i ≤ t ∧ t < i + n := by
        by_cases h' : t < count n w₁
        · exact ⟨t, h', le_rfl, by omega⟩
        · exact ⟨count n w₁ - 1, by omega, by omega, by omega⟩
      obtain ⟨i, hi, h1, h2⟩ := this
      rw [← key w₁ rfl i h1 h2, ← key w₂ hlen.symm i h1 h2, hg i hi]
    · rw [List.getElem?_eq_none (by rw [length_bracketed]; omega),
        List.getElem?_eq_none (by rw [length_bracketed]; omega)]
  simp only [bracketed, List.append_assoc] at hb
  have := List.append_cancel_left hb
  exact List.append_cancel_right this

end Verif
