import Verif.Fp.IndexSim

/-!
# For `n ≥ 2` no shared n-gram moves over the whole length

A shared n-gram is at the start of both words or of none, and likewise at the end. So a shared
occurrence always costs less than leaving it unmatched, by a margin that rounding cannot eat up.
-/

namespace Verif
namespace Fp

open EmdSpec GramSpec IndexSpec

variable {R : Rounding}

theorem align_le_sub {α β : Type} {c : α → β → ℚ} {δ : ℚ} (xs : List α) (ys : List β)
    (h : ∀ x ∈ xs, ∀ y ∈ ys, c x y ≤ 1 - δ) :
    align c xs ys ≤ max xs.length ys.length - δ * (min xs.length ys.length : ℕ) := by
  induction xs generalizing ys with
  | nil => simp
  | cons x xs ih =>
    cases ys with
    | nil => simp
    | cons y ys =>
      have h1 := align_le_match c x xs y ys
      have h2 := h x (by simp) y (by simp)
      have h3 := ih ys (fun a ha b hb => h a (by simp [ha]) b (by simp [hb]))
      have e1 : ((max (xs.length + 1) (ys.length + 1) : ℕ) : ℚ) =
          1 + ((max xs.length ys.length : ℕ) : ℚ) := by
        rw [Nat.add_max_add_right]; push_cast; ring
      have e2 : ((min (xs.length + 1) (ys.length + 1) : ℕ) : ℚ) =
          1 + ((min xs.length ys.length : ℕ) : ℚ) := by
        rw [Nat.add_min_add_right]; push_cast; ring
      simp only [List.length_cons]
      rw [e2]
      push_cast at e1 h3 ⊢
      rw [e1]
      linarith

theorem emd_le_sub {xs ys : List ℚ} {δ : ℚ} (h : ∀ x ∈ xs, ∀ y ∈ ys, |x - y| ≤ 1 - δ) :
    emd xs ys ≤ max (xs.length : ℚ) ys.length - δ * (min xs.length ys.length : ℕ) := by
  have := align_le_sub (c := absd) (δ := δ) (pySorted xs).reverse (pySorted ys).reverse (by
    intro x hx y hy
    rw [List.mem_reverse, (pySorted_perm _).mem_iff] at hx hy
    exact h x hx y hy)
  rw [emd_eq_align]
  simpa [length_pySorted] using this

/-! ## Where the markers are -/

theorem stx_iff {w : List Char} (hw : Clean w) (i : ℕ) : (bracketed w)[i]? = some stx ↔ i = 0 := by
  unfold bracketed
  constructor
  · intro h
    by_contra hi
    obtain ⟨j, rfl⟩ : ∃ j, i = j + 1 := ⟨i - 1, by omega⟩
    rw [List.append_assoc, List.singleton_append, List.getElem?_cons_succ] at h
    rcases List.mem_append.1 (List.mem_of_getElem? h) with h | h
    · exact hw.1 h
    · exact absurd (List.mem_singleton.1 h) (by decide)
  · rintro rfl; simp

theorem etx_iff {w : List Char} (hw : Clean w) (i : ℕ) :
    (bracketed w)[i]? = some etx ↔ i = w.length + 1 := by
  unfold bracketed
  constructor
  · intro h
    rcases Nat.lt_trichotomy i (w.length + 1) with hi | hi | hi
    · rw [List.getElem?_append_left (by simp; omega)] at h
      rcases List.mem_append.1 (List.mem_of_getElem? h) with h | h
      · exact absurd (List.mem_singleton.1 h) (by decide)
      · exact absurd h hw.2
    · exact hi
    · rw [List.getElem?_eq_none (by simp; omega)] at h
      cases h
  · rintro rfl
    rw [List.getElem?_append_right (by simp)]
    simp

theorem gramAt_first {n : ℕ} (hn : 1 ≤ n) {w : List Char} (hw : Clean w) (i : ℕ) :
    (gramAt n w i)[0]? = some stx ↔ i = 0 := by
  rw [← stx_iff hw]
  unfold gramAt
  rw [List.getElem?_take_of_lt (by omega), List.getElem?_drop, Nat.add_zero]

theorem gramAt_last {n : ℕ} (hn : 1 ≤ n) {w : List Char} (hw : Clean w) {i : ℕ}
    (hi : i < count n w) : (gramAt n w i)[n - 1]? = some etx ↔ i + 1 = count n w := by
  unfold gramAt
  rw [List.getElem?_take_of_lt (by omega), List.getElem?_drop, etx_iff hw, count_eq]
  rw [count_eq] at hi
  omega

theorem mem_posOf {n : ℤ} (hn : 2 ≤ n) {w g : List Char} {x : ℚ} (h : x ∈ posOf (gramsOf n w) g) :
    ∃ i < count n.toNat w, gramAt n.toNat w i = g ∧ x = relPos (count n.toNat w) i := by
  rw [posOf_eq, ← getNGrams_eq_gramsOf, located_eq_locatedOf (by omega)] at h
  obtain ⟨i, hi, e⟩ := List.mem_map.1 (Dict.mem_locs.1 h)
  obtain ⟨e1, e2⟩ := Prod.mk.inj e
  exact ⟨i, List.mem_range.1 hi, e1, e2.symm⟩

theorem relPos_between {m i : ℕ} (h0 : i ≠ 0) (h1 : i + 1 < m) :
    1 / ((m : ℚ) - 1) ≤ relPos m i ∧ relPos m i ≤ 1 - 1 / ((m : ℚ) - 1) := by
  rw [relPos_of_two_le (by omega)]
  have hm : (0 : ℚ) < (m : ℚ) - 1 := by
    have : (2 : ℚ) ≤ m := by exact_mod_cast (by omega : 2 ≤ m)
    linarith
  constructor
  · apply div_le_div_of_nonneg_right _ hm.le
    exact_mod_cast Nat.one_le_iff_ne_zero.2 h0
  · rw [le_sub_iff_add_le, ← add_div, div_le_one hm]
    have : ((i + 2 : ℕ) : ℚ) ≤ m := by exact_mod_cast (by omega : i + 2 ≤ m)
    push_cast at this
    linarith

/-- Two occurrences of a shared n-gram are never a whole length apart. -/
theorem posOf_close {n : ℤ} (hn : 2 ≤ n) {q w g : List Char} (hq : Clean q) (hw : Clean w) {x y : ℚ}
    (hx : x ∈ posOf (gramsOf n q) g) (hy : y ∈ posOf (gramsOf n w) g) :
    |x - y| ≤ 1 - 2 / (gramsTotal n q w : ℚ) := by
  obtain ⟨i, hi, e1, rfl⟩ := mem_posOf hn hx
  obtain ⟨j, hj, e2, rfl⟩ := mem_posOf hn hy
  have hn1 : 1 ≤ n.toNat := by omega
  have len : ∀ v : List Char, (gramsOf n v).length = count n.toNat v := by
    intro v
    unfold gramsOf
    rw [if_pos (by omega), grams, List.length_map, List.length_range]
  unfold gramsTotal
  rw [len, len]
  have hfirst : i = 0 ↔ j = 0 := by
    rw [← gramAt_first hn1 hq i, ← gramAt_first hn1 hw j, e1, e2]
  have hlast : i + 1 = count n.toNat q ↔ j + 1 = count n.toNat w := by
    rw [← gramAt_last hn1 hq hi, ← gramAt_last hn1 hw hj, e1, e2]
  generalize count n.toNat q = a at *
  generalize count n.toNat w = b at *
  have hT : (2 : ℚ) ≤ ((a + b : ℕ) : ℚ) := by exact_mod_cast (by omega : 2 ≤ a + b)
  have h2T : 2 / ((a + b : ℕ) : ℚ) ≤ 1 := by rw [div_le_one (by linarith)]; exact hT
  by_cases h0 : i = 0
  · rw [h0, hfirst.1 h0]
    simp only [relPos, Nat.cast_zero, zero_div, sub_self, abs_zero]
    linarith
  have h0' : j ≠ 0 := fun h => h0 (hfirst.2 h)
  by_cases h1 : i + 1 = a
  · have h1' := hlast.1 h1
    have ei : relPos a i = 1 := by
      rw [relPos_of_two_le (by omega), ← h1]
      push_cast
      rw [add_sub_cancel_right, div_self (by exact_mod_cast h0)]
    have ej : relPos b j = 1 := by
      rw [relPos_of_two_le (by omega), ← h1']
      push_cast
      rw [add_sub_cancel_right, div_self (by exact_mod_cast h0')]
    rw [ei, ej, sub_self, abs_zero]
    linarith
  have h1' : j + 1 ≠ b := fun h => h1 (hlast.2 h)
  obtain ⟨l1, u1⟩ := relPos_between (m := a) h0 (by omega)
  obtain ⟨l2, u2⟩ := relPos_between (m := b) h0' (by omega)
  have ha : (3 : ℚ) ≤ a := by exact_mod_cast (by omega : 3 ≤ a)
  have hb : (3 : ℚ) ≤ b := by exact_mod_cast (by omega : 3 ≤ b)
  have hδ : 2 / ((a + b : ℕ) : ℚ) ≤ 1 / ((a : ℚ) - 1) + 1 / ((b : ℚ) - 1) := by
    push_cast
    have c1 : 1 / ((a : ℚ) + b) ≤ 1 / ((a : ℚ) - 1) :=
      one_div_le_one_div_of_le (by linarith) (by linarith)
    have c2 : 1 / ((a : ℚ) + b) ≤ 1 / ((b : ℚ) - 1) :=
      one_div_le_one_div_of_le (by linarith) (by linarith)
    have : (2 : ℚ) / (a + b) = 1 / ((a : ℚ) + b) + 1 / ((a : ℚ) + b) := by ring
    linarith
  rw [abs_le]
  constructor <;> linarith

/-- The exact similarity exceeds its lower bound by a factor. -/
theorem simN_gap {n : ℤ} (hn : 2 ≤ n) {q w : List Char} (hq : Clean q) (hw : Clean w) :
    (1 + 2 / (gramsTotal n q w : ℚ)) * commonN n q w ≤ simN n q w := by
  unfold commonN simN
  rw [Finset.mul_sum]
  apply Finset.sum_le_sum
  intro g _
  have h := emd_le_sub (fun x hx y hy => posOf_close hn hq hw (g := g) hx hy)
  rw [length_posOf, length_posOf] at h
  have e := min_add_max ((gramsOf n q).count g : ℚ) ((gramsOf n w).count g)
  push_cast at h ⊢
  linarith

/-- The computed similarity exceeds its lower bound by a factor, too. -/
theorem simNF_gap (hu : R.u ≤ 1 / 2 ^ 53) {n : ℤ} (hn : 2 ≤ n) {q w : List Char} (hq : Clean q)
    (hw : Clean w) (hT : gramsTotal n q w ≤ 8192) :
    (1 + 1 / 8192) * commonN n q w ≤ simNF R n q w := by
  by_cases hs : Shares n q w
  · have h2 := (gramsTotal_le_denom hs).2
    have hT53 : gramsTotal n q w ≤ 2 ^ 53 := hT.trans (by norm_num)
    have hu0 := R.u_pos
    have hTq : (gramsTotal n q w : ℚ) ≤ 8192 := by exact_mod_cast hT
    have hTq2 : (2 : ℚ) ≤ gramsTotal n q w := by exact_mod_cast h2
    have e := (abs_le.1 (simNF_err (R := R) hT53 (by nlinarith))).1
    have g := simN_gap hn hq hw
    have c1 : 1 ≤ commonN n q w := by
      obtain ⟨x, hx1, hx2⟩ := hs
      have hmem : x ∈ (gramsOf n q).toFinset ∩ (gramsOf n w).toFinset := by
        rw [Finset.mem_inter, List.mem_toFinset, List.mem_toFinset]; exact ⟨hx1, hx2⟩
      refine le_trans ?_ (Finset.single_le_sum (f := fun g =>
        ((min ((gramsOf n q).count g) ((gramsOf n w).count g) : ℕ) : ℚ))
        (fun _ _ => Nat.cast_nonneg _) hmem)
      have : 1 ≤ min ((gramsOf n q).count x) ((gramsOf n w).count x) :=
        le_min (List.count_pos_iff.2 hx1) (List.count_pos_iff.2 hx2)
      exact_mod_cast this
    set T : ℚ := (gramsTotal n q w : ℚ) with hTd
    have hδ : 2 / 8192 ≤ 2 / T := div_le_div_of_nonneg_left (by norm_num) (by linarith) hTq
    have hsq : T ^ 2 * R.u ≤ 67108864 * (1 / 2 ^ 53) := by
      have : T ^ 2 ≤ 67108864 := by nlinarith
      exact mul_le_mul this hu hu0.le (by norm_num)
    have hδ' : (2 / 8192) * commonN n q w ≤ 2 / T * commonN n q w :=
      mul_le_mul_of_nonneg_right hδ (by linarith)
    nlinarith
  · rw [(not_shares_sums hs).1, mul_zero]
    unfold simNF
    rw [sharedGrams_nil hs]
    simp

theorem scoreNF_gap (hu : R.u ≤ 1 / 2 ^ 53) {n : ℤ} (hn : 2 ≤ n) {q w : List Char} (hq : Clean q)
    (hw : Clean w) (hT : gramsTotal n q w ≤ 8192) :
    (1 - R.u) * ((1 + 1 / 8192) * ratioN n q w) ≤ scoreNF R true n q w := by
  have hu' := R.u_lt
  unfold scoreNF ratioN
  rw [if_pos rfl]
  have g := simNF_gap hu hn hq hw hT
  by_cases hs : Shares n q w
  · obtain ⟨h1, h2⟩ := gramsTotal_le_denom hs
    have hd : (0 : ℚ) ≤ denom n q w := by
      have : 0 ≤ denom n q w := by omega
      exact_mod_cast this
    have c := commonN_nonneg n q w
    refine le_trans ?_ (fl_lower (div_nonneg (le_trans (by linarith) g) hd))
    apply mul_le_mul_of_nonneg_left _ (by linarith)
    rw [← mul_div_assoc]
    exact div_le_div_of_nonneg_right g hd
  · have : simNF R n q w = 0 := by unfold simNF; rw [sharedGrams_nil hs]; rfl
    rw [(not_shares_sums hs).1, this, zero_div, fl_zero]
    simp

end Fp
end Verif
