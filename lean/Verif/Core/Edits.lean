import Verif.Core.Lemmas
import Verif.Emd.Split
import Mathlib.Tactic.Linarith
import Mathlib.Tactic.FieldSimp
import Mathlib.Tactic.Ring
import Mathlib.Tactic.Positivity
import Mathlib.Tactic.NormNum

/-!
# How far editing a word moves its n-grams

`locDist` is the distance of two located lists. Replacing a block in the middle of a word leaves
the n-grams before and after it in place up to a shift of their relative positions.
-/

namespace Verif

open EmdSpec GramSpec

section
variable {γ : Type} [DecidableEq γ]

/-- Total transport cost of two located lists. -/
def locDist (L₁ L₂ : List (γ × ℚ)) : ℚ := (L₁.length : ℚ) + L₂.length - locSim L₁ L₂

theorem locDist_comm (L₁ L₂ : List (γ × ℚ)) : locDist L₁ L₂ = locDist L₂ L₁ := by
  unfold locDist; rw [locSim_comm]; ring

theorem locDist_le_add (L₁ L₂ : List (γ × ℚ)) : locDist L₁ L₂ ≤ L₁.length + L₂.length := by
  have := locSim_nonneg L₁ L₂; unfold locDist; linarith

theorem locDist_self (L : List (γ × ℚ)) : locDist L L = 0 := by
  unfold locDist; rw [locSim_self]; ring

theorem locDist_trans (L₁ L₂ L₃ : List (γ × ℚ)) :
    locDist L₁ L₃ ≤ locDist L₁ L₂ + locDist L₂ L₃ := locDist_triangle L₁ L₂ L₃

theorem locDist_eq_sum (L₁ L₂ : List (γ × ℚ)) {U : Finset γ}
    (h₁ : gramSet L₁ ⊆ U) (h₂ : gramSet L₂ ⊆ U) :
    locDist L₁ L₂ = ∑ g ∈ U, emd (Dict.locs L₁ g) (Dict.locs L₂ g) :=
  sub_locSim_eq_sum_emd L₁ L₂ h₁ h₂

theorem gramSet_append (A B : List (γ × ℚ)) : gramSet (A ++ B) = gramSet A ∪ gramSet B := by
  simp [gramSet]

theorem locDist_append_le (A B C D : List (γ × ℚ)) :
    locDist (A ++ B) (C ++ D) ≤ locDist A C + locDist B D := by
  let U := gramSet (A ++ B) ∪ gramSet (C ++ D)
  have hA : gramSet A ⊆ U := by
    intro g hg; simp only [U, gramSet_append, Finset.mem_union]; tauto
  have hB : gramSet B ⊆ U := by
    intro g hg; simp only [U, gramSet_append, Finset.mem_union]; tauto
  have hC : gramSet C ⊆ U := by
    intro g hg; simp only [U, gramSet_append, Finset.mem_union]; tauto
  have hD : gramSet D ⊆ U := by
    intro g hg; simp only [U, gramSet_append, Finset.mem_union]; tauto
  rw [locDist_eq_sum (U := U) _ _ Finset.subset_union_left Finset.subset_union_right,
    locDist_eq_sum _ _ hA hC, locDist_eq_sum _ _ hB hD, ← Finset.sum_add_distrib]
  apply Finset.sum_le_sum
  intro g _
  rw [Dict.locs_append, Dict.locs_append]
  exact emd_append_le _ _ _ _

theorem locDist_single (g : γ) (x y : ℚ) : locDist [(g, x)] [(g, y)] ≤ |x - y| := by
  have h : ∀ z : ℚ, gramSet [(g, z)] ⊆ {g} := by intro z; simp [gramSet]
  rw [locDist_eq_sum _ _ (h x) (h y)]
  simp only [Finset.sum_singleton, Dict.locs, decide_true, List.filter_cons, if_true,
    List.filter_nil, List.map_cons, List.map_nil]
  have := emd_le_match x y [] []
  rwa [emd_self, add_zero] at this

/-- Moving every occurrence. -/
theorem locDist_map_le {ι : Type} (l : List ι) (g : ι → γ) (p q : ι → ℚ) :
    locDist (l.map fun i => (g i, p i)) (l.map fun i => (g i, q i)) ≤
      (l.map fun i => |p i - q i|).sum := by
  induction l with
  | nil => simp [locDist]
  | cons i l ih =>
    have := locDist_append_le [(g i, p i)] (l.map fun i => (g i, p i)) [(g i, q i)]
      (l.map fun i => (g i, q i))
    have h1 := locDist_single (g i) (p i) (q i)
    simp only [List.map_cons, List.sum_cons]
    simp only [List.singleton_append] at this
    linarith

theorem locDist_map_le_const {ι : Type} (l : List ι) (g g' : ι → γ) (p q : ι → ℚ) (e : ℚ)
    (hg : ∀ i ∈ l, g i = g' i) (h : ∀ i ∈ l, |p i - q i| ≤ e) :
    locDist (l.map fun i => (g i, p i)) (l.map fun i => (g' i, q i)) ≤ l.length * e := by
  have e1 : (l.map fun i => (g' i, q i)) = l.map fun i => (g i, q i) := by
    apply List.map_congr_left; intro i hi; rw [hg i hi]
  rw [e1]
  refine (locDist_map_le l g p q).trans ?_
  have := List.sum_le_card_nsmul (l.map fun i => |p i - q i|) e (by
    intro x hx; simp only [List.mem_map] at hx; obtain ⟨i, hi, rfl⟩ := hx; exact h i hi)
  simpa using this

end

/-! ### Relative positions -/

/-- Positions counted from the front. -/
theorem relPos_front {m m' i : ℕ} (hm : m ≤ m') (hi : i < m) :
    |relPos m i - relPos m' i| ≤ ((m' - m : ℕ) : ℚ) / m := by
  rcases Nat.eq_or_lt_of_le hm with rfl | hlt
  · simp
  · have hm1 : (1 : ℚ) ≤ m := by exact_mod_cast (by omega : 1 ≤ m)
    have hm' : (m : ℚ) + 1 ≤ m' := by exact_mod_cast hlt
    have hiq : (i : ℚ) + 1 ≤ m := by exact_mod_cast hi
    have hi0 : (0 : ℚ) ≤ i := Nat.cast_nonneg i
    rw [Nat.cast_sub hm]
    have e' : max 1 ((m' : ℚ) - 1) = m' - 1 := max_eq_right (by linarith)
    unfold relPos
    rw [e']
    set M := max 1 ((m : ℚ) - 1) with hM
    have hM1 : 1 ≤ M := le_max_left _ _
    have hM2 : (m : ℚ) - 1 ≤ M := le_max_right _ _
    have hM3 : M ≤ m' - 1 := max_le (by linarith) (by linarith)
    have hMM : (m' : ℚ) - 1 - M ≤ m' - m := by linarith
    have hd : (i : ℚ) / M - i / (m' - 1) = (i / M) * ((m' - 1 - M) / (m' - 1)) := by
      have : M ≠ 0 := by linarith
      have : (m' : ℚ) - 1 ≠ 0 := by linarith
      field_simp
    have h1 : (i : ℚ) / M ≤ 1 := by rw [div_le_one (by linarith)]; linarith
    have h2 : (0 : ℚ) ≤ i / M := by positivity
    have h3 : ((m' : ℚ) - 1 - M) / (m' - 1) ≤ (m' - m) / m := by
      rw [div_le_div_iff₀ (by linarith) (by linarith)]
      nlinarith
    have h4 : 0 ≤ ((m' : ℚ) - 1 - M) / (m' - 1) := div_nonneg (by linarith) (by linarith)
    rw [hd, abs_of_nonneg (mul_nonneg h2 h4)]
    nlinarith

/-- Positions counted from the back. -/
theorem relPos_back {m m' j : ℕ} (hm : m ≤ m') (hj : j < m) :
    |relPos m (m - 1 - j) - relPos m' (m' - 1 - j)| ≤ ((m' - m : ℕ) : ℚ) / m := by
  rcases Nat.eq_or_lt_of_le hm with rfl | hlt
  · simp
  · have back : ∀ k : ℕ, 2 ≤ k → j < k → relPos k (k - 1 - j) = 1 - relPos k j := by
      intro k hk hjk
      unfold relPos
      have hkq : (2 : ℚ) ≤ k := by exact_mod_cast hk
      rw [max_eq_right (by linarith), Nat.cast_sub (by omega), Nat.cast_sub (by omega)]
      have : (k : ℚ) - 1 ≠ 0 := by linarith
      field_simp
      push_cast
      ring
    by_cases h1 : m = 1
    · subst h1
      have hj0 : j = 0 := by omega
      subst hj0
      rw [back m' (by omega) (by omega)]
      have : (1 : ℚ) ≤ ((m' - 1 : ℕ) : ℚ) := by exact_mod_cast (by omega : 1 ≤ m' - 1)
      simp only [relPos]
      simpa using this
    · rw [back m (by omega) hj, back m' (by omega) (by omega)]
      have := relPos_front hm hj
      rw [show 1 - relPos m j - (1 - relPos m' j) = -(relPos m j - relPos m' j) by ring, abs_neg]
      exact this

/-! ### Replacing a block -/

/-- `located` cut into the first `k₁` n-grams, the middle and the last `k₃`. -/
theorem located_split (n : ℕ) (w : List Char) {k₁ k₃ : ℕ} (h : k₁ + k₃ ≤ count n w) :
    located n w =
      ((List.range k₁).map fun i => (gramAt n w i, relPos (count n w) i)) ++
      (((List.range (count n w - k₁ - k₃)).map fun i =>
          (gramAt n w (k₁ + i), relPos (count n w) (k₁ + i))) ++
       ((List.range k₃).map fun j => (gramAt n w (count n w - 1 - (k₃ - 1 - j)),
          relPos (count n w) (count n w - 1 - (k₃ - 1 - j))))) := by
  unfold located
  obtain ⟨c, hc⟩ : ∃ c, c = count n w := ⟨_, rfl⟩
  rw [← hc] at h ⊢
  obtain ⟨r, rfl⟩ : ∃ r, c = k₁ + (r + k₃) := ⟨c - k₁ - k₃, by omega⟩
  rw [List.range_add, List.map_append, List.range_add, List.map_append, List.map_append,
    List.map_map, List.map_map, List.map_map]
  rw [show k₁ + (r + k₃) - k₁ - k₃ = r by omega]
  congr 2
  apply List.map_congr_left
  intro j hj
  rw [List.mem_range] at hj
  simp only [Function.comp]
  rw [show k₁ + (r + k₃) - 1 - (k₃ - 1 - j) = k₁ + (r + j) by omega]

theorem gramAt_prefix {n i : ℕ} {u v x y : List Char} (h : i + n ≤ u.length + 1) :
    gramAt n (u ++ x ++ v) i = gramAt n (u ++ y ++ v) i := by
  have key : ∀ z : List Char, gramAt n (u ++ z ++ v) i = (((stx :: u).drop i).take n) := by
    intro z
    unfold gramAt bracketed
    rw [show [stx] ++ (u ++ z ++ v) ++ [etx] = (stx :: u) ++ (z ++ v ++ [etx]) by simp,
      List.drop_append_of_le_length (by simp; omega), List.take_append_of_le_length]
    simp; omega
  rw [key, key]

theorem gramAt_suffix {n j : ℕ} {u v x y : List Char} (h : j + n ≤ v.length + 1) :
    gramAt n (u ++ x ++ v) (count n (u ++ x ++ v) - 1 - j) =
      gramAt n (u ++ y ++ v) (count n (u ++ y ++ v) - 1 - j) := by
  have key : ∀ z : List Char, gramAt n (u ++ z ++ v) (count n (u ++ z ++ v) - 1 - j) =
      (((v ++ [etx]).drop (v.length + 1 - n - j)).take n) := by
    intro z
    unfold gramAt bracketed
    rw [count_eq, show [stx] ++ (u ++ z ++ v) ++ [etx] = (stx :: (u ++ z)) ++ (v ++ [etx]) by simp,
      show (u ++ z ++ v).length + 3 - n - 1 - j =
        (stx :: (u ++ z)).length + (v.length + 1 - n - j) by simp; omega,
      List.drop_append, List.drop_eq_nil_of_le (by omega), List.nil_append, Nat.add_sub_cancel_left]
  rw [key, key]

/-- Replacing a block of a word by a block that is not shorter. -/
theorem locDist_block_aux {n : ℕ} (hn : 1 ≤ n) (u v x y : List Char) (hxy : x.length ≤ y.length) :
    locDist (located n (u ++ x ++ v)) (located n (u ++ y ++ v)) ≤ 2 * (y.length + n - 1) := by
  obtain ⟨m, hm⟩ : ∃ m, m = count n (u ++ x ++ v) := ⟨_, rfl⟩
  obtain ⟨m', hm'⟩ : ∃ m', m' = count n (u ++ y ++ v) := ⟨_, rfl⟩
  have em : m = u.length + x.length + v.length + 3 - n := by
    rw [hm, count_eq]; simp only [List.length_append]
  have em' : m' = u.length + y.length + v.length + 3 - n := by
    rw [hm', count_eq]; simp only [List.length_append]
  obtain ⟨k₁, hk₁⟩ : ∃ k, k = u.length + 2 - n := ⟨_, rfl⟩
  obtain ⟨k₃, hk₃⟩ : ∃ k, k = v.length + 2 - n := ⟨_, rfl⟩
  have hle : m ≤ m' := by omega
  have hk : k₁ + k₃ ≤ m := by omega
  have hk' : k₁ + k₃ ≤ m' := by omega
  have hmid : m - k₁ - k₃ ≤ x.length + (n - 1) := by omega
  have hmid' : m' - k₁ - k₃ ≤ y.length + (n - 1) := by omega
  have hgap : m' - m ≤ y.length - x.length := by omega
  rw [located_split n _ (hm ▸ hk), located_split n _ (hm' ▸ hk'), ← hm, ← hm']
  refine (locDist_append_le _ _ _ _).trans ?_
  have h1 := locDist_map_le_const (List.range k₁) (gramAt n (u ++ x ++ v))
    (gramAt n (u ++ y ++ v)) (relPos m) (relPos m') (((m' - m : ℕ) : ℚ) / m)
    (fun i hi => gramAt_prefix (by rw [List.mem_range] at hi; omega))
    (fun i hi => relPos_front hle (by rw [List.mem_range] at hi; omega))
  have h3 := locDist_map_le_const (List.range k₃)
    (fun j => gramAt n (u ++ x ++ v) (m - 1 - (k₃ - 1 - j)))
    (fun j => gramAt n (u ++ y ++ v) (m' - 1 - (k₃ - 1 - j)))
    (fun j => relPos m (m - 1 - (k₃ - 1 - j))) (fun j => relPos m' (m' - 1 - (k₃ - 1 - j)))
    (((m' - m : ℕ) : ℚ) / m)
    (fun j hj => by
      rw [List.mem_range] at hj
      rw [hm, hm']
      exact gramAt_suffix (by omega))
    (fun j hj => relPos_back hle (by rw [List.mem_range] at hj; omega))
  have h2 := locDist_append_le
    ((List.range (m - k₁ - k₃)).map fun i => (gramAt n (u ++ x ++ v) (k₁ + i), relPos m (k₁ + i)))
    ((List.range k₃).map fun j => (gramAt n (u ++ x ++ v) (m - 1 - (k₃ - 1 - j)),
      relPos m (m - 1 - (k₃ - 1 - j))))
    ((List.range (m' - k₁ - k₃)).map fun i => (gramAt n (u ++ y ++ v) (k₁ + i), relPos m' (k₁ + i)))
    ((List.range k₃).map fun j => (gramAt n (u ++ y ++ v) (m' - 1 - (k₃ - 1 - j)),
      relPos m' (m' - 1 - (k₃ - 1 - j))))
  have h4 := locDist_le_add
    ((List.range (m - k₁ - k₃)).map fun i => (gramAt n (u ++ x ++ v) (k₁ + i), relPos m (k₁ + i)))
    ((List.range (m' - k₁ - k₃)).map fun i => (gramAt n (u ++ y ++ v) (k₁ + i), relPos m' (k₁ + i)))
  simp only [List.length_map, List.length_range] at h1 h3 h4
  have q1 : ((m - k₁ - k₃ : ℕ) : ℚ) ≤ x.length + (n - 1 : ℕ) := by exact_mod_cast hmid
  have q2 : ((m' - k₁ - k₃ : ℕ) : ℚ) ≤ y.length + (n - 1 : ℕ) := by exact_mod_cast hmid'
  have q3 : ((n - 1 : ℕ) : ℚ) = n - 1 := by rw [Nat.cast_sub hn]; simp
  have q4 : (k₁ : ℚ) * (((m' - m : ℕ) : ℚ) / m) + k₃ * (((m' - m : ℕ) : ℚ) / m) ≤
      (y.length : ℚ) - x.length := by
    have g : ((m' - m : ℕ) : ℚ) ≤ (y.length : ℚ) - x.length := by
      rw [← Nat.cast_sub hxy]; exact_mod_cast hgap
    refine le_trans ?_ g
    rw [← add_mul]
    by_cases hm0 : m = 0
    · rw [hm0]; simp
    · have hmq : (0 : ℚ) < m := by exact_mod_cast Nat.pos_of_ne_zero hm0
      have hkq : (k₁ : ℚ) + k₃ ≤ m := by exact_mod_cast hk
      rw [mul_div_assoc', div_le_iff₀ hmq, mul_comm]
      exact mul_le_mul_of_nonneg_left hkq (Nat.cast_nonneg _)
  rw [q3] at q1 q2
  linarith

/-- Replacing any block of a word by any other block. -/
theorem locDist_block {n : ℕ} (hn : 1 ≤ n) (u v x y : List Char) :
    locDist (located n (u ++ x ++ v)) (located n (u ++ y ++ v)) ≤
      2 * ((max x.length y.length : ℕ) + n - 1) := by
  rcases le_total x.length y.length with h | h
  · rw [max_eq_right h]; exact locDist_block_aux hn u v x y h
  · rw [max_eq_left h, locDist_comm]; exact locDist_block_aux hn u v y x h

end Verif
