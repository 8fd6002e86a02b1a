import Verif.Fp.Error
import Verif.Core.Lemmas

/-!
# `ngram_movers_distance` in rounded arithmetic: lemmas
-/

namespace Verif
namespace Fp

open EmdSpec GramSpec

/-- One round of the similarity loop on an n-gram that both words have. -/
def simStep (R : FOps) (s : ℚ) (i : List ℚ × List ℚ) : ℚ :=
  R.fl (R.fl (s + (i.1.length + i.2.length)) - emdF R i.1 i.2)

/-- Total number of positions. -/
def itemsLen (items : List (List ℚ × List ℚ)) : ℕ :=
  (items.map fun i => i.1.length + i.2.length).sum

/-- Sum of the smaller numbers of positions. -/
def itemsMin (items : List (List ℚ × List ℚ)) : ℕ :=
  (items.map fun i => min i.1.length i.2.length).sum

theorem itemsLen_cons (i : List ℚ × List ℚ) (items : List (List ℚ × List ℚ)) :
    itemsLen (i :: items) = i.1.length + i.2.length + itemsLen items := by
  simp [itemsLen]

theorem itemsMin_cons (i : List ℚ × List ℚ) (items : List (List ℚ × List ℚ)) :
    itemsMin (i :: items) = min i.1.length i.2.length + itemsMin items := by
  simp [itemsMin]

theorem two_mul_itemsMin_le (items : List (List ℚ × List ℚ)) :
    2 * itemsMin items ≤ itemsLen items := by
  induction items with
  | nil => simp [itemsMin, itemsLen]
  | cons i items ih => rw [itemsLen_cons, itemsMin_cons]; omega

section Laws

variable {R : Rounding}

theorem simStep_le {s : ℚ} {c : ℕ} {i : List ℚ × List ℚ} (hs : s ≤ c)
    (hc : c + (i.1.length + i.2.length) ≤ 2 ^ 53) :
    simStep R s i ≤ ((c + 2 * min i.1.length i.2.length : ℕ) : ℚ) := by
  unfold simStep
  apply fl_le_nat (by omega)
  have h1 : R.fl (s + (i.1.length + i.2.length)) ≤ ((c + (i.1.length + i.2.length) : ℕ) : ℚ) := by
    apply fl_le_nat hc
    push_cast
    linarith
  have h2 := sub_le_emdF (R := R) i.1 i.2 (by omega)
  have h3 := sub_le_emdF (R := R) i.2 i.1 (by omega)
  rw [emdF_comm] at h3
  push_cast at h1 ⊢
  rcases le_total (i.1.length : ℚ) i.2.length with h | h
  · rw [min_eq_left h]; linarith
  · rw [min_eq_right h]; linarith

theorem le_simStep {s : ℚ} {c : ℕ} {i : List ℚ × List ℚ} (hs : (c : ℚ) ≤ s)
    (hc : c + (i.1.length + i.2.length) ≤ 2 ^ 53) (hi : Spread1 i.1 i.2) :
    ((c + min i.1.length i.2.length : ℕ) : ℚ) ≤ simStep R s i := by
  unfold simStep
  apply nat_le_fl (by omega)
  have h1 : ((c + (i.1.length + i.2.length) : ℕ) : ℚ) ≤ R.fl (s + (i.1.length + i.2.length)) := by
    apply nat_le_fl hc
    push_cast
    linarith
  have h2 := emdF_le_max (R := R) (by omega) hi
  have h3 := min_add_max (i.1.length : ℚ) i.2.length
  push_cast at h1 ⊢
  linarith

theorem simFold_le (items : List (List ℚ × List ℚ)) {s : ℚ} {c : ℕ} (hs : s ≤ c)
    (hc : c + itemsLen items ≤ 2 ^ 53) :
    items.foldl (simStep R) s ≤ ((c + 2 * itemsMin items : ℕ) : ℚ) := by
  induction items generalizing s c with
  | nil => simpa [itemsMin] using hs
  | cons i items ih =>
    rw [itemsLen_cons] at hc
    rw [List.foldl_cons, itemsMin_cons]
    have := ih (simStep_le (R := R) (i := i) hs (by omega)) (by omega)
    rwa [add_assoc, ← mul_add] at this

theorem le_simFold (items : List (List ℚ × List ℚ)) {s : ℚ} {c : ℕ} (hs : (c : ℚ) ≤ s)
    (hc : c + itemsLen items ≤ 2 ^ 53) (hi : ∀ i ∈ items, Spread1 i.1 i.2) :
    ((c + itemsMin items : ℕ) : ℚ) ≤ items.foldl (simStep R) s := by
  induction items generalizing s c with
  | nil => simpa [itemsMin] using hs
  | cons i items ih =>
    rw [itemsLen_cons] at hc
    rw [List.foldl_cons, itemsMin_cons, ← add_assoc]
    exact ih (le_simStep (R := R) (i := i) hs (by omega) (hi i (by simp))) (by omega)
      (fun j hj => hi j (by simp [hj]))

/-- If nothing has to be moved, the loop adds up integers. -/
theorem simFold_self (items : List (List ℚ × List ℚ)) (hi : ∀ i ∈ items, i.1 = i.2) (c : ℕ)
    (hc : c + itemsLen items ≤ 2 ^ 53) :
    items.foldl (simStep R) (c : ℚ) = ((c + itemsLen items : ℕ) : ℚ) := by
  induction items generalizing c with
  | nil => simp [itemsLen]
  | cons i items ih =>
    rw [itemsLen_cons] at hc
    have e : simStep R (c : ℚ) i = ((c + (i.1.length + i.2.length) : ℕ) : ℚ) := by
      unfold simStep
      rw [hi i (by simp), emdF_self, sub_zero]
      rw [hi i (by simp)] at hc
      have : (c : ℚ) + ((i.2.length : ℚ) + i.2.length) = ((c + (i.2.length + i.2.length) : ℕ) : ℚ) := by
        push_cast; ring
      rw [this, R.nat _ (by omega), R.nat _ (by omega)]
    rw [List.foldl_cons, e, ih (fun j hj => hi j (by simp [hj])) _ (by omega), itemsLen_cons,
      add_assoc]

/-- All points lie in the unit interval. -/
def Unit01 (xs : List ℚ) : Prop := ∀ x ∈ xs, 0 ≤ x ∧ x ≤ 1

theorem fl_err_unit {xs : List ℚ} (h : Unit01 xs) : ∀ x ∈ xs, |R.fl x - x| ≤ R.u := by
  intro x hx
  refine (R.err x).trans ?_
  have := h x hx
  rw [abs_of_nonneg this.1]
  nlinarith [R.u_pos]

theorem unit01_map {xs : List ℚ} (h : Unit01 xs) : Unit01 (xs.map R.fl) := by
  intro x hx
  obtain ⟨y, hy, rfl⟩ := List.mem_map.1 hx
  have := h y hy
  refine ⟨fl_nonneg this.1, ?_⟩
  have := fl_le_nat (R := R) (n := 1) (by norm_num) (by simpa using this.2)
  simpa using this

theorem spread1_of_unit01 {xs ys : List ℚ} (hx : Unit01 xs) (hy : Unit01 ys) : Spread1 xs ys := by
  intro x hxx y hyy
  have := hx x hxx
  have := hy y hyy
  rw [abs_le]
  constructor <;> linarith

theorem emdF_fl_err {xs ys : List ℚ} (hx : Unit01 xs) (hy : Unit01 ys)
    (h : ((xs.length + ys.length : ℕ) : ℚ) * R.u ≤ 1 / 2) :
    |emdF R (xs.map R.fl) (ys.map R.fl) - emd xs ys| ≤
      3 * ((xs.length + ys.length : ℕ) : ℚ) ^ 2 * R.u := by
  have hu := R.u_pos
  have h1 := emdF_err (R := R) (xs.map R.fl) (ys.map R.fl) (by simpa using h)
  have h2 := emd_map_err R.fl xs ys (fl_err_unit hx) (fl_err_unit hy)
  have h3 := emd_le_add (xs.map R.fl) (ys.map R.fl)
  simp only [List.length_map] at h1 h3
  set L : ℚ := ((xs.length + ys.length : ℕ) : ℚ) with hL
  have h3' : emd (xs.map R.fl) (ys.map R.fl) ≤ L := by rw [hL]; push_cast; exact h3
  have h4 : L ≤ L ^ 2 := by
    rw [hL]
    have : xs.length + ys.length ≤ (xs.length + ys.length) ^ 2 := Nat.le_self_pow (by norm_num) _
    exact_mod_cast this
  have hL0 : 0 ≤ L := by rw [hL]; positivity
  have h5 : 2 * L * R.u * emd (xs.map R.fl) (ys.map R.fl) ≤ 2 * L * R.u * L :=
    mul_le_mul_of_nonneg_left h3' (by positivity)
  have h6 := abs_sub_le (emdF R (xs.map R.fl) (ys.map R.fl)) (emd (xs.map R.fl) (ys.map R.fl))
    (emd xs ys)
  have h7 : L * R.u ≤ L ^ 2 * R.u := mul_le_mul_of_nonneg_right h4 hu.le
  nlinarith

theorem spread1_map {xs ys : List ℚ} (hx : Unit01 xs) (hy : Unit01 ys) :
    Spread1 (xs.map R.fl) (ys.map R.fl) := spread1_of_unit01 (unit01_map hx) (unit01_map hy)

/-- The accumulated error of the similarity loop. -/
theorem simFold_err {T : ℕ} (hT : T ≤ 2 ^ 53) (hTu : (T : ℚ) * R.u ≤ 1 / 2)
    (items : List (List ℚ × List ℚ)) (hi : ∀ i ∈ items, Unit01 i.1 ∧ Unit01 i.2)
    (hl : ∀ i ∈ items, 2 ≤ i.1.length + i.2.length) {s t : ℚ} {c : ℕ} (h0 : 0 ≤ s) (hs : s ≤ c)
    (hc : c + itemsLen items ≤ T) :
    |(items.map fun i => (i.1.map R.fl, i.2.map R.fl)).foldl (simStep R) s -
        (t + (items.map fun i => contrib i.1 i.2).sum)| ≤
      |s - t| + 4 * R.u * T * itemsLen items := by
  induction items generalizing s t c with
  | nil => simp [itemsLen]
  | cons i items ih =>
    have hu := R.u_pos
    rw [itemsLen_cons] at hc
    obtain ⟨u1, u2⟩ := hi i (by simp)
    have hlen := hl i (by simp)
    rw [List.map_cons, List.foldl_cons, List.map_cons, List.sum_cons, ← add_assoc, itemsLen_cons]
    have b1 := simStep_le (R := R) (s := s) (c := c) (i := (i.1.map R.fl, i.2.map R.fl)) hs
      (by simp only [List.length_map]; omega)
    have b2 := le_simStep (R := R) (s := s) (c := 0) (i := (i.1.map R.fl, i.2.map R.fl))
      (by simpa using h0) (by simp only [List.length_map]; omega) (spread1_map u1 u2)
    simp only [List.length_map] at b1 b2
    have step := ih (fun j hj => hi j (by simp [hj])) (fun j hj => hl j (by simp [hj]))
      (s := simStep R s (i.1.map R.fl, i.2.map R.fl)) (t := t + contrib i.1 i.2)
      (c := c + (i.1.length + i.2.length))
      (le_trans (by positivity) b2) (b1.trans (by
        have : c + 2 * min i.1.length i.2.length ≤ c + (i.1.length + i.2.length) := by omega
        exact_mod_cast this)) (by omega)
    refine step.trans ?_
    -- error of this round
    have e0 := emdF_fl_err (R := R) u1 u2 (by
      refine le_trans (mul_le_mul_of_nonneg_right ?_ hu.le) hTu
      have : i.1.length + i.2.length ≤ T := by omega
      exact_mod_cast this)
    set L : ℚ := ((i.1.length + i.2.length : ℕ) : ℚ) with hL
    have hLT : L ≤ T := by
      have : i.1.length + i.2.length ≤ T := by omega
      rw [hL]; exact_mod_cast this
    have hL2 : 2 ≤ L := by rw [hL]; exact_mod_cast hlen
    have hsT : s + L ≤ T := by
      have : (c : ℚ) + L ≤ T := by
        rw [hL]
        have : c + (i.1.length + i.2.length) ≤ T := by omega
        exact_mod_cast this
      linarith
    have hfl1 := R.err (s + L)
    rw [abs_of_nonneg (show 0 ≤ s + L by linarith)] at hfl1
    have hfl1' : R.fl (s + L) ≤ T := fl_le_nat hT hsT
    have hE0 := emdF_nonneg (R := R) (i.1.map R.fl) (i.2.map R.fl)
    have hE1 := emdF_le_add (R := R) (i.1.map R.fl) (i.2.map R.fl)
      (by simp only [List.length_map]; omega)
    simp only [List.length_map] at hE1
    have hEL : emdF R (i.1.map R.fl) (i.2.map R.fl) ≤ L := by rw [hL]; push_cast; exact hE1
    have hfl0 : L ≤ R.fl (s + L) := by
      rw [hL]
      apply nat_le_fl (by omega)
      rw [← hL]; linarith
    have hfl2 := R.err (R.fl (s + L) - emdF R (i.1.map R.fl) (i.2.map R.fl))
    rw [abs_of_nonneg (show 0 ≤ R.fl (s + L) - emdF R (i.1.map R.fl) (i.2.map R.fl) by linarith)]
      at hfl2
    have hstep : simStep R s (i.1.map R.fl, i.2.map R.fl) =
        R.fl (R.fl (s + L) - emdF R (i.1.map R.fl) (i.2.map R.fl)) := by
      unfold simStep
      simp only [List.length_map, hL]
      push_cast
      rfl
    have hcon : contrib i.1 i.2 = L - emd i.1 i.2 := by
      unfold contrib; rw [hL]; push_cast; ring
    have key : |simStep R s (i.1.map R.fl, i.2.map R.fl) - (t + contrib i.1 i.2)| ≤
        |s - t| + 4 * R.u * T * L := by
      rw [hstep, hcon]
      have g1 : R.u * (s + L) ≤ R.u * T := mul_le_mul_of_nonneg_left hsT hu.le
      have g2 : R.u * (R.fl (s + L) - emdF R (i.1.map R.fl) (i.2.map R.fl)) ≤ R.u * T :=
        mul_le_mul_of_nonneg_left (by linarith) hu.le
      have g3 : 3 * L ^ 2 * R.u ≤ 3 * R.u * T * L := by
        have : L * L ≤ T * L := mul_le_mul_of_nonneg_right hLT (by linarith)
        nlinarith
      have g4 : 2 * (R.u * T) ≤ R.u * T * L := by
        have : 0 ≤ R.u * T := by positivity
        nlinarith
      have a1 := abs_le.1 hfl1
      have a2 := abs_le.1 hfl2
      have a3 := abs_le.1 e0
      have a4 := abs_le.1 (le_refl |s - t|)
      rw [abs_le]
      constructor <;> linarith
    have hsum : 4 * R.u * (T : ℚ) * ((i.1.length + i.2.length + itemsLen items : ℕ) : ℚ) =
        4 * R.u * T * L + 4 * R.u * T * itemsLen items := by
      rw [hL]; push_cast; ring
    rw [hsum]
    linarith

end Laws

/-! ## The loop over the dictionary -/

section Loop

variable (R : FOps)

/-- The n-grams of a word with their rounded positions. -/
def locatedF (n : ℕ) (w : List Char) : List (List Char × ℚ) :=
  (located n w).map fun p => (p.1, R.fl p.2)

/-- The n-grams that both words have, in the order of the loop. -/
def commonKeys (n : ℕ) (w₁ w₂ : List Char) : List (List Char) :=
  (Dict.keys (Dict.group (locatedF R n w₁))).filter (fun g => g ∈ (located n w₂).map Prod.fst)

/-- The exact positions of these n-grams. -/
def commonItems (n : ℕ) (w₁ w₂ : List Char) : List (List ℚ × List ℚ) :=
  (commonKeys R n w₁ w₂).map fun g => (Dict.locs (located n w₁) g, Dict.locs (located n w₂) g)

/-- The computed similarity. -/
def simF (n : ℕ) (w₁ w₂ : List Char) : ℚ :=
  ((commonItems R n w₁ w₂).map fun i => (i.1.map R.fl, i.2.map R.fl)).foldl (simStep R) 0

variable {R}

theorem map_fst_locatedF (n : ℕ) (w : List Char) :
    (locatedF R n w).map Prod.fst = (located n w).map Prod.fst := by
  simp [locatedF, Function.comp_def]

theorem locs_locatedF (n : ℕ) (w : List Char) (g : List Char) :
    Dict.locs (locatedF R n w) g = (Dict.locs (located n w) g).map R.fl := by
  simp only [Dict.locs, locatedF, List.filter_map, List.map_map]
  rfl

theorem nGramLocationsF_eq (w : List Char) (n : ℤ) (hn : 2 ≤ n) :
    nGramLocationsF R (pad w) n = Dict.group (locatedF R n.toNat w) := by
  unfold nGramLocationsF Dict.group locatedF located
  rw [toNat_numGramsInt w n hn, List.map_map, List.foldl_map]
  apply List.foldl_ext
  intro d i hi
  rw [List.mem_range] at hi
  have hc : ((numGramsInt (pad w) n : ℤ) : ℚ) = (count n.toNat w : ℚ) := by
    have h1 := toNat_numGramsInt w n hn
    have h2 : (numGramsInt (pad w) n) = ((count n.toNat w : ℕ) : ℤ) := by omega
    rw [h2]; simp
  simp only [pySlice, gramAt, relPos, pad_eq, Nat.add_sub_cancel_left, Function.comp] at hc ⊢
  rw [hc]

theorem similarityLoopF_eq (n : ℕ) (w₁ w₂ : List Char) :
    similarityLoopF R (Dict.group (locatedF R n w₁)) (Dict.group (locatedF R n w₂)) =
      simF R n w₁ w₂ := by
  unfold similarityLoopF simF commonItems commonKeys
  rw [Dict.group_eq_map (locatedF R n w₁), List.foldl_map, List.foldl_map, List.foldl_map,
    List.foldl_filter]
  have hk : Dict.keys ((Dict.keys (Dict.group (locatedF R n w₁))).map fun k =>
      (k, Dict.locs (locatedF R n w₁) k)) = Dict.keys (Dict.group (locatedF R n w₁)) := by
    rw [← Dict.group_eq_map]
  rw [hk]
  apply List.foldl_ext
  intro s g _
  rw [Dict.get?_group, map_fst_locatedF]
  by_cases h : g ∈ (located n w₂).map Prod.fst
  · simp only [h, if_true, decide_true, simStep, locs_locatedF]
  · simp only [h, if_false, decide_false, Bool.false_eq_true]

theorem nodup_commonKeys (n : ℕ) (w₁ w₂ : List Char) : (commonKeys R n w₁ w₂).Nodup :=
  (Dict.nodup_keys_group _).filter _

theorem toFinset_commonKeys (n : ℕ) (w₁ w₂ : List Char) :
    (commonKeys R n w₁ w₂).toFinset = gramSet (located n w₁) ∩ gramSet (located n w₂) := by
  ext g
  rw [List.mem_toFinset, Finset.mem_inter, mem_gramSet, mem_gramSet, commonKeys, List.mem_filter,
    Dict.mem_keys_group, map_fst_locatedF]
  simp

theorem sum_commonKeys (n : ℕ) (w₁ w₂ : List Char) (f : List Char → ℚ) :
    ((commonKeys R n w₁ w₂).map f).sum =
      ∑ g ∈ gramSet (located n w₁) ∩ gramSet (located n w₂), f g := by
  rw [← toFinset_commonKeys (R := R), List.sum_toFinset _ (nodup_commonKeys n w₁ w₂)]

theorem itemsLen_common_le (n : ℕ) (w₁ w₂ : List Char) :
    itemsLen (commonItems R n w₁ w₂) ≤ count n w₁ + count n w₂ := by
  have h : ((itemsLen (commonItems R n w₁ w₂) : ℕ) : ℚ) =
      ∑ g ∈ gramSet (located n w₁) ∩ gramSet (located n w₂),
        (((Dict.locs (located n w₁) g).length : ℚ) + (Dict.locs (located n w₂) g).length) := by
    rw [← sum_commonKeys (R := R), itemsLen, commonItems, List.map_map, Nat.cast_list_sum,
      List.map_map]
    congr 1
    apply List.map_congr_left
    intro g _
    simp
  have h1 : ∑ g ∈ gramSet (located n w₁) ∩ gramSet (located n w₂),
      ((Dict.locs (located n w₁) g).length : ℚ) ≤ count n w₁ := by
    rw [← length_located, ← sum_length_locs (located n w₁) (le_refl _)]
    exact Finset.sum_le_sum_of_subset_of_nonneg Finset.inter_subset_left
      (fun _ _ _ => Nat.cast_nonneg _)
  have h2 : ∑ g ∈ gramSet (located n w₁) ∩ gramSet (located n w₂),
      ((Dict.locs (located n w₂) g).length : ℚ) ≤ count n w₂ := by
    rw [← length_located, ← sum_length_locs (located n w₂) (le_refl _)]
    exact Finset.sum_le_sum_of_subset_of_nonneg Finset.inter_subset_right
      (fun _ _ _ => Nat.cast_nonneg _)
  rw [Finset.sum_add_distrib] at h
  have : ((itemsLen (commonItems R n w₁ w₂) : ℕ) : ℚ) ≤ ((count n w₁ + count n w₂ : ℕ) : ℚ) := by
    push_cast; linarith
  exact_mod_cast this

theorem itemsMin_common_le (n : ℕ) (w₁ w₂ : List Char) :
    itemsMin (commonItems R n w₁ w₂) ≤ min (count n w₁) (count n w₂) := by
  have h : ((itemsMin (commonItems R n w₁ w₂) : ℕ) : ℚ) =
      ∑ g ∈ gramSet (located n w₁) ∩ gramSet (located n w₂),
        min ((Dict.locs (located n w₁) g).length : ℚ) (Dict.locs (located n w₂) g).length := by
    rw [← sum_commonKeys (R := R), itemsMin, commonItems, List.map_map, Nat.cast_list_sum,
      List.map_map]
    congr 1
    apply List.map_congr_left
    intro g _
    simp
  have h1 : ∑ g ∈ gramSet (located n w₁) ∩ gramSet (located n w₂),
      min ((Dict.locs (located n w₁) g).length : ℚ) (Dict.locs (located n w₂) g).length ≤
        count n w₁ := by
    rw [← length_located, ← sum_length_locs (located n w₁) (le_refl _)]
    exact (Finset.sum_le_sum (fun g _ => min_le_left _ _)).trans
      (Finset.sum_le_sum_of_subset_of_nonneg Finset.inter_subset_left
        (fun _ _ _ => Nat.cast_nonneg _))
  have h2 : ∑ g ∈ gramSet (located n w₁) ∩ gramSet (located n w₂),
      min ((Dict.locs (located n w₁) g).length : ℚ) (Dict.locs (located n w₂) g).length ≤
        count n w₂ := by
    rw [← length_located, ← sum_length_locs (located n w₂) (le_refl _)]
    exact (Finset.sum_le_sum (fun g _ => min_le_right _ _)).trans
      (Finset.sum_le_sum_of_subset_of_nonneg Finset.inter_subset_right
        (fun _ _ _ => Nat.cast_nonneg _))
  rw [← h] at h1 h2
  exact le_min (by exact_mod_cast h1) (by exact_mod_cast h2)

theorem unit01_locs (n : ℕ) (w g : List Char) : Unit01 (Dict.locs (located n w) g) :=
  fun _ hx => unitLocated_located n w _ (Dict.mem_locs.1 hx)

theorem commonItems_unit (n : ℕ) (w₁ w₂ : List Char) :
    ∀ i ∈ commonItems R n w₁ w₂, Unit01 i.1 ∧ Unit01 i.2 := by
  intro i hi
  obtain ⟨g, _, rfl⟩ := List.mem_map.1 hi
  exact ⟨unit01_locs _ _ _, unit01_locs _ _ _⟩

theorem commonItems_ne (n : ℕ) (w₁ w₂ : List Char) :
    ∀ i ∈ commonItems R n w₁ w₂, i.1 ≠ [] ∧ i.2 ≠ [] := by
  intro i hi
  obtain ⟨g, hg, rfl⟩ := List.mem_map.1 hi
  have : g ∈ (commonKeys R n w₁ w₂).toFinset := List.mem_toFinset.2 hg
  rw [toFinset_commonKeys, Finset.mem_inter, mem_gramSet, mem_gramSet] at this
  constructor
  · rw [Ne, Dict.locs_eq_nil, not_not]; exact this.1
  · rw [Ne, Dict.locs_eq_nil, not_not]; exact this.2

theorem itemsLen_map (items : List (List ℚ × List ℚ)) (f : ℚ → ℚ) :
    itemsLen (items.map fun i => (i.1.map f, i.2.map f)) = itemsLen items := by
  simp [itemsLen, Function.comp_def]

theorem itemsMin_map (items : List (List ℚ × List ℚ)) (f : ℚ → ℚ) :
    itemsMin (items.map fun i => (i.1.map f, i.2.map f)) = itemsMin items := by
  simp [itemsMin, Function.comp_def]

end Loop

/-! ## The computed similarity -/

variable {R : Rounding}

variable {n : ℕ} {w₁ w₂ : List Char}

theorem simF_le (hT : count n w₁ + count n w₂ ≤ 2 ^ 53) :
    simF R n w₁ w₂ ≤ 2 * min (count n w₁ : ℚ) (count n w₂) := by
  have h := simFold_le (R := R) ((commonItems R n w₁ w₂).map fun i => (i.1.map R.fl, i.2.map R.fl))
    (s := 0) (c := 0) (by simp) (by
      rw [itemsLen_map]; have := itemsLen_common_le (R := R) n w₁ w₂; omega)
  rw [itemsMin_map] at h
  refine (show simF R n w₁ w₂ ≤ _ from h).trans ?_
  have := itemsMin_common_le (R := R) n w₁ w₂
  have : ((0 + 2 * itemsMin (commonItems R n w₁ w₂) : ℕ) : ℚ) ≤
      ((2 * min (count n w₁) (count n w₂) : ℕ) : ℚ) := by
    rw [Nat.zero_add]
    exact_mod_cast Nat.mul_le_mul_left 2 this
  refine this.trans ?_
  push_cast
  exact le_refl _

theorem le_simF (hT : count n w₁ + count n w₂ ≤ 2 ^ 53) :
    (itemsMin (commonItems R n w₁ w₂) : ℚ) ≤ simF R n w₁ w₂ := by
  have h := le_simFold (R := R) ((commonItems R n w₁ w₂).map fun i => (i.1.map R.fl, i.2.map R.fl))
    (s := 0) (c := 0) (by simp) (by
      rw [itemsLen_map]; have := itemsLen_common_le (R := R) n w₁ w₂; omega) (by
      intro i hi
      obtain ⟨j, hj, rfl⟩ := List.mem_map.1 hi
      have := commonItems_unit (R := R) n w₁ w₂ j hj
      exact spread1_map this.1 this.2)
  rw [itemsMin_map, Nat.zero_add] at h
  exact h

theorem simF_nonneg (hT : count n w₁ + count n w₂ ≤ 2 ^ 53) : 0 ≤ simF R n w₁ w₂ :=
  le_trans (Nat.cast_nonneg _) (le_simF hT)

theorem simF_eq_zero (h : Disjoint (gramSet (located n w₁)) (gramSet (located n w₂))) :
    simF R n w₁ w₂ = 0 := by
  have : commonKeys R n w₁ w₂ = [] := by
    rw [← List.toFinset_eq_empty_iff, toFinset_commonKeys]
    exact Finset.disjoint_iff_inter_eq_empty.1 h
  simp [simF, commonItems, this]

theorem one_le_simF (hT : count n w₁ + count n w₂ ≤ 2 ^ 53)
    (h : ¬ Disjoint (gramSet (located n w₁)) (gramSet (located n w₂))) :
    1 ≤ simF R n w₁ w₂ := by
  refine le_trans ?_ (le_simF hT)
  obtain ⟨i, hi⟩ : ∃ i, i ∈ commonItems R n w₁ w₂ := by
    rw [Finset.disjoint_iff_inter_eq_empty, ← toFinset_commonKeys (R := R),
      List.toFinset_eq_empty_iff] at h
    obtain ⟨g, hg⟩ := List.exists_mem_of_ne_nil _ h
    exact ⟨_, List.mem_map_of_mem hg⟩
  have hne := commonItems_ne (R := R) n w₁ w₂ i hi
  have h1 : 1 ≤ min i.1.length i.2.length :=
    le_min (List.length_pos_iff.2 hne.1) (List.length_pos_iff.2 hne.2)
  have h2 : min i.1.length i.2.length ≤ itemsMin (commonItems R n w₁ w₂) :=
    List.le_sum_of_mem (List.mem_map_of_mem (f := fun i : List ℚ × List ℚ =>
      min i.1.length i.2.length) hi)
  exact_mod_cast h1.trans h2

theorem simF_self (n : ℕ) (w : List Char) (hT : count n w + count n w ≤ 2 ^ 53) :
    simF R n w w = 2 * count n w := by
  have h := simFold_self (R := R) ((commonItems R n w w).map fun i => (i.1.map R.fl, i.2.map R.fl))
    (by
      intro i hi
      obtain ⟨j, hj, rfl⟩ := List.mem_map.1 hi
      obtain ⟨g, _, rfl⟩ := List.mem_map.1 hj
      rfl) 0 (by
      rw [itemsLen_map]; have := itemsLen_common_le (R := R) n w w; omega)
  rw [itemsLen_map, Nat.zero_add] at h
  have e : ((itemsLen (commonItems R n w w) : ℕ) : ℚ) = 2 * count n w := by
    have : ((itemsLen (commonItems R n w w) : ℕ) : ℚ) =
        ∑ g ∈ gramSet (located n w) ∩ gramSet (located n w),
          (((Dict.locs (located n w) g).length : ℚ) + (Dict.locs (located n w) g).length) := by
      rw [← sum_commonKeys (R := R), itemsLen, commonItems, List.map_map, Nat.cast_list_sum,
        List.map_map]
      congr 1
      apply List.map_congr_left
      intro g _
      simp
    rw [this, Finset.inter_self, Finset.sum_add_distrib, sum_length_locs _ (le_refl _),
      length_located]
    ring
  rw [← e, ← h]
  simp [simF]

theorem simF_err (hT : count n w₁ + count n w₂ ≤ 2 ^ 53)
    (hTu : ((count n w₁ + count n w₂ : ℕ) : ℚ) * R.u ≤ 1 / 2) :
    |simF R n w₁ w₂ - locSim (located n w₁) (located n w₂)| ≤
      4 * ((count n w₁ + count n w₂ : ℕ) : ℚ) ^ 2 * R.u := by
  have hlen := itemsLen_common_le (R := R) n w₁ w₂
  have h := simFold_err (R := R) hT hTu (commonItems R n w₁ w₂) (commonItems_unit n w₁ w₂)
    (by
      intro i hi
      have := commonItems_ne (R := R) n w₁ w₂ i hi
      have h1 := List.length_pos_iff.2 this.1
      have h2 := List.length_pos_iff.2 this.2
      omega) (s := 0) (t := 0) (c := 0) le_rfl (by simp) (by omega)
  have e : ((commonItems R n w₁ w₂).map fun i => contrib i.1 i.2).sum =
      locSim (located n w₁) (located n w₂) := by
    rw [commonItems, List.map_map]
    exact sum_commonKeys (R := R) n w₁ w₂
      (fun g => contrib (Dict.locs (located n w₁) g) (Dict.locs (located n w₂) g))
  rw [e, zero_add, sub_zero, abs_zero, zero_add] at h
  refine (show |simF R n w₁ w₂ - _| ≤ _ from h).trans ?_
  have hu := R.u_pos
  have hq : ((itemsLen (commonItems R n w₁ w₂) : ℕ) : ℚ) ≤ ((count n w₁ + count n w₂ : ℕ) : ℚ) := by
    exact_mod_cast hlen
  set T : ℚ := ((count n w₁ + count n w₂ : ℕ) : ℚ) with hTd
  have hT0 : 0 ≤ T := by rw [hTd]; positivity
  calc 4 * R.u * T * ((itemsLen (commonItems R n w₁ w₂) : ℕ) : ℚ) ≤ 4 * R.u * T * T :=
        mul_le_mul_of_nonneg_left hq (by positivity)
    _ = _ := by ring

/-- Value of the rounded `ngram_movers_distance` on valid arguments. -/
theorem nmdF_valid {a b : List Char} (h₁ : Clean a) (h₂ : Clean b) {n : ℤ} (hn : 2 ≤ n)
    (invert normalize : Bool) :
    nmdF R (.str a) (.str b) (.int n) invert normalize =
      (let s := simF R n.toNat a b
       let t : ℚ := countInt n a + countInt n b
       let out : ℚ := if invert then s else R.fl (t - s)
       if normalize then
         if countInt n a + countInt n b = 0 then .error .zeroDivisionError
         else .ok (R.fl (out / t))
       else .ok out) := by
  simp only [nmdF, checkWord_str h₁, checkWord_str h₂, checkN_int hn, bind, Except.bind, nmdCheckedF,
    nGramLocationsF_eq _ _ hn, similarityLoopF_eq, numGramsInt_eq]

/-! ## The smallest exact distance -/

theorem relPos_grid (m i : ℕ) : ∃ k : ℤ, relPos m i * ((max 1 (m - 1) : ℕ) : ℚ) = k := by
  refine ⟨i, ?_⟩
  unfold relPos
  have : ((max 1 (m - 1) : ℕ) : ℚ) = max 1 ((m : ℚ) - 1) := by
    rcases Nat.eq_zero_or_pos m with rfl | h
    · norm_num
    · push_cast [h]; rfl
  rw [this, div_mul_cancel₀]
  · simp
  · exact (lt_of_lt_of_le zero_lt_one (le_max_left _ _)).ne'

theorem located_grid (n : ℕ) (w g : List Char) :
    ∀ x ∈ Dict.locs (located n w) g, ∃ k : ℤ, x * ((max 1 (count n w - 1) : ℕ) : ℚ) = k := by
  intro x hx
  obtain ⟨i, _, e⟩ := List.mem_map.1 (Dict.mem_locs.1 hx)
  obtain ⟨_, rfl⟩ := Prod.mk.inj e
  exact relPos_grid _ _

/-- Two different words are at least the product of the position steps apart. -/
theorem locDist_ge {n : ℕ} {a b : List Char} (hn : 1 ≤ n) (ha : n ≤ a.length + 2) (hne : a ≠ b) :
    1 / (((max 1 (count n a - 1) : ℕ) : ℚ) * ((max 1 (count n b - 1) : ℕ) : ℚ)) ≤
      (count n a : ℚ) + count n b - locSim (located n a) (located n b) := by
  have e := sub_locSim_eq_sum_emd (located n a) (located n b)
    (Finset.subset_union_left : gramSet (located n a) ⊆ gramSet (located n a) ∪ gramSet (located n b))
    Finset.subset_union_right
  rw [length_located, length_located] at e
  rw [e]
  obtain ⟨g, hg, h0⟩ : ∃ g ∈ gramSet (located n a) ∪ gramSet (located n b),
      emd (Dict.locs (located n a) g) (Dict.locs (located n b) g) ≠ 0 := by
    by_contra hcon
    push Not at hcon
    have hz := Finset.sum_eq_zero hcon
    rw [hz] at e
    apply hne
    apply located_perm_inj hn ha
    rw [← locSim_full_iff, length_located, length_located]
    linarith
  refine (emd_grid (by positivity) (by positivity) _ _ (located_grid n a g) (located_grid n b g)
    h0).trans ?_
  exact Finset.single_le_sum (f := fun g => emd (Dict.locs (located n a) g)
    (Dict.locs (located n b) g)) (fun _ _ => emd_nonneg _ _) hg

end Fp
end Verif
