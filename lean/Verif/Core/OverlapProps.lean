import Verif.Core.Props
import Mathlib.Algebra.Order.BigOperators.Group.Finset
import Mathlib.Algebra.BigOperators.Group.Finset.Basic
import Mathlib.Data.Multiset.UnionInter

/-!
# Properties C210 and C211: distance and number of common n-grams
-/

namespace Verif

open EmdSpec GramSpec

namespace GramSpec

/-- Number of n-grams in common, with their multiplicity. -/
def common (n : ℕ) (a b : List Char) : ℕ :=
  ((grams n a : Multiset (List Char)) ∩ (grams n b : Multiset (List Char))).card

/-- Dice coefficient: twice the number of n-grams in common, divided by the number of all. -/
def dice (n : ℕ) (a b : List Char) : ℚ := 2 * common n a b / ((grams n a).length + (grams n b).length)

end GramSpec

theorem length_locs_located (n : ℕ) (w g : List Char) :
    (Dict.locs (located n w) g).length = (grams n w).count g := by
  rw [locs_located]
  unfold positionsOf grams
  rw [List.length_map, List.count, List.countP_map, List.countP_eq_length_filter]
  congr 1
  apply List.filter_congr
  intro i _
  simp [beq_eq_decide]

theorem common_eq_sum (n : ℕ) (a b : List Char) :
    (common n a b : ℚ) = ∑ g ∈ gramSet (located n a) ∩ gramSet (located n b),
      min ((Dict.locs (located n a) g).length : ℚ) (Dict.locs (located n b) g).length := by
  have e : gramSet (located n a) ∩ gramSet (located n b) =
      ((grams n a : Multiset (List Char)) ∩ (grams n b : Multiset (List Char))).toFinset := by
    ext g
    simp only [gramSet_located, Finset.mem_inter, List.mem_toFinset, Multiset.mem_toFinset,
      Multiset.mem_inter, Multiset.mem_coe]
  unfold common
  rw [e, ← Multiset.toFinset_sum_count_eq, Nat.cast_sum]
  apply Finset.sum_congr rfl
  intro g _
  rw [Multiset.count_inter, length_locs_located, length_locs_located, Nat.cast_min,
    Multiset.coe_count, Multiset.coe_count]
  congr!

theorem common_le_locSim (n : ℕ) (a b : List Char) :
    (common n a b : ℚ) ≤ locSim (located n a) (located n b) := by
  rw [common_eq_sum]
  exact Finset.sum_le_sum fun g _ =>
    min_le_contrib (spread1_of_unit (unitLocated_located n a) (unitLocated_located n b) g)

theorem locSim_le_common (n : ℕ) (a b : List Char) :
    locSim (located n a) (located n b) ≤ 2 * common n a b := by
  rw [common_eq_sum, Finset.mul_sum]
  exact Finset.sum_le_sum fun g _ => contrib_le_two_min _ _

theorem length_grams (n : ℕ) (w : List Char) : (grams n w).length = count n w := by
  simp [grams]

/-- **C210.** The similarity lies between the number of common n-grams and twice that number. -/
theorem C210_common {a b : List Char} (ha : Clean a) (hb : Clean b) {n : ℤ} (hn : 2 ≤ n) :
    ∃ s, nmd (.str a) (.str b) (.int n) true false = .ok s ∧
      (common n.toNat a b : ℚ) ≤ s ∧ s ≤ 2 * common n.toNat a b := by
  rw [nmd_valid ha hb hn]
  exact ⟨_, rfl, by simpa using common_le_locSim n.toNat a b,
    by simpa using locSim_le_common n.toNat a b⟩

/-- **C210.** The normalised similarity lies between half the Dice coefficient of the n-grams and
the Dice coefficient. -/
theorem C210_dice {a b : List Char} (ha : Clean a) (hb : Clean b) {n : ℤ} (hn : 2 ≤ n)
    (hla : HasGram n a) (hlb : HasGram n b) :
    ∃ s, nmd (.str a) (.str b) (.int n) true true = .ok s ∧
      dice n.toNat a b / 2 ≤ s ∧ s ≤ dice n.toNat a b := by
  unfold HasGram at hla hlb
  rw [nmd_valid ha hb hn, countInt_eq_count hn (by omega), countInt_eq_count hn (by omega)]
  have hc : 0 < count n.toNat a := by rw [count_eq]; omega
  have hcq : (0 : ℚ) < (count n.toNat a : ℚ) + count n.toNat b := by
    have : (0 : ℚ) < count n.toNat a := by exact_mod_cast hc
    positivity
  simp only [if_true]
  rw [if_neg (by omega)]
  refine ⟨_, rfl, ?_, ?_⟩
  · unfold dice
    rw [length_grams, length_grams]
    push_cast
    rw [div_div, mul_comm _ (2 : ℚ), mul_div_mul_left _ _ (by norm_num)]
    exact div_le_div_of_nonneg_right (common_le_locSim _ _ _) hcq.le
  · unfold dice
    rw [length_grams, length_grams]
    push_cast
    exact div_le_div_of_nonneg_right (locSim_le_common _ _ _) hcq.le

/-- The upper bound is attained by a word and itself; moved n-grams bring the score down. -/
example : common 2 "banana".toList "nabana".toList = 5 ∧
    nmd (.str "banana".toList) (.str "nabana".toList) (.int 2) true false = .ok (28 / 3) ∧
    dice 2 "banana".toList "nabana".toList = 5 / 7 ∧
    nmd (.str "banana".toList) (.str "nabana".toList) (.int 2) true true = .ok (2 / 3) := by
  decide +kernel

/-! ### Common blocks -/

/-- Windows of length `n` of a text. -/
def windowsOf (n : ℕ) (x : List Char) : List (List Char) :=
  (List.range (x.length + 1 - n)).map (fun i => (x.drop i).take n)

theorem windowsOf_sublist {n : ℕ} {x y : List Char} (h : x <:+: y) :
    (windowsOf n x).Sublist (windowsOf n y) := by
  obtain ⟨u, v, rfl⟩ := h
  by_cases h0 : x.length + 1 - n = 0
  · unfold windowsOf
    rw [h0]
    simp
  unfold windowsOf
  rw [show (u ++ x ++ v).length + 1 - n = u.length + ((x.length + 1 - n) + v.length) by
    simp only [List.length_append]; omega, List.range_add, List.range_add, List.map_append,
    List.map_append, List.map_append]
  have : (List.map (fun i => List.take n (List.drop i x)) (List.range (x.length + 1 - n))) =
      (((List.range (x.length + 1 - n)).map (u.length + ·)).map
        fun i => ((u ++ x ++ v).drop i).take n) := by
    rw [List.map_map]
    apply List.map_congr_left
    intro i hi
    rw [List.mem_range] at hi
    simp only [Function.comp]
    rw [List.append_assoc, List.drop_append (i := u.length + i), Nat.add_sub_cancel_left,
      List.drop_eq_nil_of_le (i := u.length + i) (by omega), List.nil_append, List.drop_append,
      List.take_append_of_le_length]
    rw [List.length_drop]; omega
  rw [this]
  exact (List.sublist_append_left _ _).trans (List.sublist_append_right _ _)

theorem windowsOf_bracketed (n : ℕ) (w : List Char) : windowsOf n (bracketed w) = grams n w := rfl

theorem block_le_common {n : ℕ} {a b x : List Char} (ha : x <:+: bracketed a)
    (hb : x <:+: bracketed b) : x.length + 1 - n ≤ common n a b := by
  have h1 : (windowsOf n x : Multiset (List Char)) ≤ grams n a :=
    Multiset.coe_le.2 (windowsOf_bracketed n a ▸ (windowsOf_sublist ha).subperm)
  have h2 : (windowsOf n x : Multiset (List Char)) ≤ grams n b :=
    Multiset.coe_le.2 (windowsOf_bracketed n b ▸ (windowsOf_sublist hb).subperm)
  have := Multiset.card_le_card (Multiset.le_inter h1 h2)
  simpa [windowsOf, common] using this

theorem infix_bracketed {x w : List Char} (h : x <:+: w) : x <:+: bracketed w := by
  obtain ⟨u, v, rfl⟩ := h
  exact ⟨[stx] ++ u, v ++ [etx], by simp [bracketed]⟩

theorem prefix_bracketed {x w : List Char} (h : x <+: w) : stx :: x <:+: bracketed w := by
  obtain ⟨v, rfl⟩ := h
  exact ⟨[], v ++ [etx], by simp [bracketed]⟩

theorem suffix_bracketed {x w : List Char} (h : x <:+ w) : x ++ [etx] <:+: bracketed w := by
  obtain ⟨v, rfl⟩ := h
  exact ⟨[stx] ++ v, [], by simp [bracketed]⟩

/-- **C211.** A block of `L` characters that occurs in both words, wherever, guarantees a similarity
of at least `L - n + 1`; a common beginning or a common end at least `L - n + 2`. -/
theorem C211_common_block {a b x : List Char} (ha : Clean a) (hb : Clean b) {n : ℤ} (hn : 2 ≤ n) :
    ∃ s, nmd (.str a) (.str b) (.int n) true false = .ok s ∧
      (x <:+: a → x <:+: b → (x.length : ℚ) - n + 1 ≤ s) ∧
      (x <+: a → x <+: b → (x.length : ℚ) - n + 2 ≤ s) ∧
      (x <:+ a → x <:+ b → (x.length : ℚ) - n + 2 ≤ s) := by
  obtain ⟨s, h1, h2, -⟩ := C210_common ha hb hn
  have key : ∀ y, y <:+: bracketed a → y <:+: bracketed b → (y.length : ℚ) - n + 1 ≤ s := by
    intro y hya hyb
    refine le_trans ?_ h2
    have := block_le_common (n := n.toNat) hya hyb
    have h3 : (y.length : ℤ) - n + 1 ≤ (common n.toNat a b : ℤ) := by omega
    exact_mod_cast h3
  refine ⟨s, h1, fun p q => key x (infix_bracketed p) (infix_bracketed q), fun p q => ?_,
    fun p q => ?_⟩
  · have := key _ (prefix_bracketed p) (prefix_bracketed q)
    rw [List.length_cons] at this
    push_cast at this
    linarith
  · have := key _ (suffix_bracketed p) (suffix_bracketed q)
    rw [List.length_append] at this
    push_cast at this
    simp only [List.length_singleton, Nat.cast_one] at this
    linarith

example : "phone".toList <:+: "smartphone".toList ∧ "phone".toList <:+: "phonebook".toList ∧
    nmd (.str "smartphone".toList) (.str "phonebook".toList) (.int 2) true false = .ok (55 / 9) := by
  decide +kernel

end Verif
