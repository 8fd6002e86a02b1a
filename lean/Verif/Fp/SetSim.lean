import Verif.Fp.SetSpec
import Verif.Fp.SetState
import Verif.Fp.IndexAccum
import Verif.WordSet.Rank

/-!
# The computed similarity of `WordSet`: bounds and errors
-/

namespace Verif
namespace Fp

open EmdSpec GramSpec WordSetSpec

variable (R : Rounding)

/-- One round of the loop on an n-gram that both words have. -/
def setSimStep (s : ℚ) (i : List ℚ × List ℚ) : ℚ :=
  R.fl (s + R.fl ((i.1.length : ℚ) + i.2.length - emdF R i.1 i.2))

variable {R}

/-! ## The loop -/

theorem setItem_le {i : List ℚ × List ℚ} (hc : i.1.length + i.2.length ≤ 2 ^ 53) :
    R.fl ((i.1.length : ℚ) + i.2.length - emdF R i.1 i.2) ≤
      ((2 * min i.1.length i.2.length : ℕ) : ℚ) := by
  apply fl_le_nat (by omega)
  have h2 := sub_le_emdF (R := R) i.1 i.2 (by omega)
  have h3 := sub_le_emdF (R := R) i.2 i.1 (by omega)
  rw [emdF_comm] at h3
  push_cast
  rcases le_total (i.1.length : ℚ) i.2.length with h | h
  · rw [min_eq_left h]; linarith
  · rw [min_eq_right h]; linarith

theorem le_setItem {i : List ℚ × List ℚ} (hc : i.1.length + i.2.length ≤ 2 ^ 53)
    (hi : Spread1 i.1 i.2) :
    ((min i.1.length i.2.length : ℕ) : ℚ) ≤
      R.fl ((i.1.length : ℚ) + i.2.length - emdF R i.1 i.2) := by
  apply nat_le_fl (by omega)
  have h2 := emdF_le_max (R := R) (by omega) hi
  have h3 := min_add_max (i.1.length : ℚ) i.2.length
  push_cast
  linarith

theorem setSimStep_le {s : ℚ} {c : ℕ} {i : List ℚ × List ℚ} (hs : s ≤ c)
    (hc : c + (i.1.length + i.2.length) ≤ 2 ^ 53) :
    setSimStep R s i ≤ ((c + 2 * min i.1.length i.2.length : ℕ) : ℚ) := by
  unfold setSimStep
  apply fl_le_nat (by omega)
  have := setItem_le (R := R) (i := i) (by omega)
  push_cast at this ⊢
  linarith

theorem le_setSimStep {s : ℚ} {c : ℕ} {i : List ℚ × List ℚ} (hs : (c : ℚ) ≤ s)
    (hc : c + (i.1.length + i.2.length) ≤ 2 ^ 53) (hi : Spread1 i.1 i.2) :
    ((c + min i.1.length i.2.length : ℕ) : ℚ) ≤ setSimStep R s i := by
  unfold setSimStep
  apply nat_le_fl (by omega)
  have := le_setItem (R := R) (i := i) (by omega) hi
  push_cast at this ⊢
  linarith

theorem setSimFold_le (items : List (List ℚ × List ℚ)) {s : ℚ} {c : ℕ} (hs : s ≤ c)
    (hc : c + itemsLen items ≤ 2 ^ 53) :
    items.foldl (setSimStep R) s ≤ ((c + 2 * itemsMin items : ℕ) : ℚ) := by
  induction items generalizing s c with
  | nil => simpa [itemsMin] using hs
  | cons i items ih =>
    rw [itemsLen_cons] at hc
    rw [List.foldl_cons, itemsMin_cons]
    have := ih (setSimStep_le (R := R) (i := i) hs (by omega)) (by omega)
    rwa [add_assoc, ← mul_add] at this

theorem le_setSimFold (items : List (List ℚ × List ℚ)) {s : ℚ} {c : ℕ} (hs : (c : ℚ) ≤ s)
    (hc : c + itemsLen items ≤ 2 ^ 53) (hi : ∀ i ∈ items, Spread1 i.1 i.2) :
    ((c + itemsMin items : ℕ) : ℚ) ≤ items.foldl (setSimStep R) s := by
  induction items generalizing s c with
  | nil => simpa [itemsMin] using hs
  | cons i items ih =>
    rw [itemsLen_cons] at hc
    rw [List.foldl_cons, itemsMin_cons, ← add_assoc]
    exact ih (le_setSimStep (R := R) (i := i) hs (by omega) (hi i (by simp))) (by omega)
      (fun j hj => hi j (by simp [hj]))

/-- If nothing has to be moved, the loop adds up integers. -/
theorem setSimFold_self (items : List (List ℚ × List ℚ)) (hi : ∀ i ∈ items, i.1 = i.2) (c : ℕ)
    (hc : c + itemsLen items ≤ 2 ^ 53) :
    items.foldl (setSimStep R) (c : ℚ) = ((c + itemsLen items : ℕ) : ℚ) := by
  induction items generalizing c with
  | nil => simp [itemsLen]
  | cons i items ih =>
    rw [itemsLen_cons] at hc
    have e : setSimStep R (c : ℚ) i = ((c + (i.1.length + i.2.length) : ℕ) : ℚ) := by
      unfold setSimStep
      rw [hi i (by simp), emdF_self, sub_zero]
      rw [hi i (by simp)] at hc
      have h1 : ((i.2.length : ℚ) + i.2.length) = ((i.2.length + i.2.length : ℕ) : ℚ) := by
        push_cast; ring
      rw [h1, R.nat _ (by omega)]
      have h2 : (c : ℚ) + ((i.2.length + i.2.length : ℕ) : ℚ) =
          ((c + (i.2.length + i.2.length) : ℕ) : ℚ) := by push_cast; ring
      rw [h2, R.nat _ (by omega)]
    rw [List.foldl_cons, e, ih (fun j hj => hi j (by simp [hj])) _ (by omega), itemsLen_cons,
      add_assoc]

/-- The accumulated error of the loop. -/
theorem setSimFold_err {T : ℕ} (hT : T ≤ 2 ^ 53) (hTu : (T : ℚ) * R.u ≤ 1 / 2)
    (items : List (List ℚ × List ℚ)) (hi : ∀ i ∈ items, Unit01 i.1 ∧ Unit01 i.2)
    (hl : ∀ i ∈ items, 2 ≤ i.1.length + i.2.length) {s t : ℚ} {c : ℕ} (h0 : 0 ≤ s) (hs : s ≤ c)
    (hc : c + itemsLen items ≤ T) :
    |(items.map fun i => (i.1.map R.fl, i.2.map R.fl)).foldl (setSimStep R) s -
        (t + (items.map fun i => contrib i.1 i.2).sum)| ≤
      |s - t| + 4 * R.u * T * itemsLen items := by
  induction items generalizing s t c with
  | nil => simp [itemsLen]
  | cons i items ih =>
    have hu := R.u_pos
    rw [itemsLen_cons] at hc
    obtain ⟨u1, u2⟩ := hi i (by simp)
    have hlen := hl i (by simp)
    rw [List.map_cons, List.foldl_cons, List.map_cons, List.sum_cons, ← add_assoc, itemsLen_cons]
    have b1 := setSimStep_le (R := R) (s := s) (c := c) (i := (i.1.map R.fl, i.2.map R.fl)) hs
      (by simp only [List.length_map]; omega)
    have b2 := le_setSimStep (R := R) (s := s) (c := 0) (i := (i.1.map R.fl, i.2.map R.fl))
      (by simpa using h0) (by simp only [List.length_map]; omega) (spread1_map u1 u2)
    have c1 := setItem_le (R := R) (i := (i.1.map R.fl, i.2.map R.fl))
      (by simp only [List.length_map]; omega)
    have c2 := le_setItem (R := R) (i := (i.1.map R.fl, i.2.map R.fl))
      (by simp only [List.length_map]; omega) (spread1_map u1 u2)
    simp only [List.length_map] at b1 b2 c1 c2
    have step := ih (fun j hj => hi j (by simp [hj])) (fun j hj => hl j (by simp [hj]))
      (s := setSimStep R s (i.1.map R.fl, i.2.map R.fl)) (t := t + contrib i.1 i.2)
      (c := c + (i.1.length + i.2.length))
      (le_trans (by positivity) b2) (b1.trans (by
        have : c + 2 * min i.1.length i.2.length ≤ c + (i.1.length + i.2.length) := by omega
        exact_mod_cast this)) (by omega)
    refine step.trans ?_
    have e0 := emdF_fl_err (R := R) u1 u2 (by
      refine le_trans (mul_le_mul_of_nonneg_right ?_ hu.le) hTu
      have : i.1.length + i.2.length ≤ T := by omega
      exact_mod_cast this)
    set L : ℚ := ((i.1.length + i.2.length : ℕ) : ℚ) with hL
    have hLe : (i.1.length : ℚ) + i.2.length = L := by rw [hL]; push_cast; rfl
    rw [hLe] at c1 c2
    have hLT : L ≤ T := by
      have : i.1.length + i.2.length ≤ T := by omega
      rw [hL]; exact_mod_cast this
    have hL2 : 2 ≤ L := by rw [hL]; exact_mod_cast hlen
    have hsT : s + L ≤ T := by
      have : (c : ℚ) + L ≤ T := by
        rw [hL]
        have : c + (i.1.length + i.2.length) ≤ T := by omega
        exact_mod_cast this
      linarith
    have hE0 := emdF_nonneg (R := R) (i.1.map R.fl) (i.2.map R.fl)
    have hE1 := emdF_le_add (R := R) (i.1.map R.fl) (i.2.map R.fl)
      (by simp only [List.length_map]; omega)
    simp only [List.length_map] at hE1
    rw [hLe] at hE1
    have hfl1 := R.err (L - emdF R (i.1.map R.fl) (i.2.map R.fl))
    rw [abs_of_nonneg (show 0 ≤ L - emdF R (i.1.map R.fl) (i.2.map R.fl) by linarith)] at hfl1
    have hstep : setSimStep R s (i.1.map R.fl, i.2.map R.fl) =
        R.fl (s + R.fl (L - emdF R (i.1.map R.fl) (i.2.map R.fl))) := by
      unfold setSimStep
      simp only [List.length_map, hLe]
    have hV0 : 0 ≤ R.fl (L - emdF R (i.1.map R.fl) (i.2.map R.fl)) :=
      le_trans (Nat.cast_nonneg _) c2
    have hVL : R.fl (L - emdF R (i.1.map R.fl) (i.2.map R.fl)) ≤ L := by
      refine c1.trans ?_
      rw [hL]
      have : 2 * min i.1.length i.2.length ≤ i.1.length + i.2.length := by omega
      exact_mod_cast this
    have hfl2 := R.err (s + R.fl (L - emdF R (i.1.map R.fl) (i.2.map R.fl)))
    rw [abs_of_nonneg (show 0 ≤ s + R.fl (L - emdF R (i.1.map R.fl) (i.2.map R.fl)) by linarith)]
      at hfl2
    have hcon : contrib i.1 i.2 = L - emd i.1 i.2 := by
      unfold contrib; rw [hL]; push_cast; ring
    have key : |setSimStep R s (i.1.map R.fl, i.2.map R.fl) - (t + contrib i.1 i.2)| ≤
        |s - t| + 4 * R.u * T * L := by
      rw [hstep, hcon]
      have g1 : R.u * (L - emdF R (i.1.map R.fl) (i.2.map R.fl)) ≤ R.u * T :=
        mul_le_mul_of_nonneg_left (by linarith) hu.le
      have g2 : R.u * (s + R.fl (L - emdF R (i.1.map R.fl) (i.2.map R.fl))) ≤ R.u * T :=
        mul_le_mul_of_nonneg_left (by linarith) hu.le
      have g3 : 3 * L ^ 2 * R.u ≤ 3 * R.u * T * L := by
        have : L * L ≤ T * L := mul_le_mul_of_nonneg_right hLT (by linarith)
        nlinarith
      have g4 : 2 * (R.u * T) ≤ R.u * T * L := by
        have : 0 ≤ R.u * T := by positivity
        nlinarith
      have a1 := abs_le.1 hfl1
      have a2 := abs_le.1 hfl2
      have a3 := abs_le.1 e0
      have a4 := abs_le.1 (le_refl |s - t|)
      rw [abs_le]
      constructor <;> linarith
    have hsum : 4 * R.u * (T : ℚ) * ((i.1.length + i.2.length + itemsLen items : ℕ) : ℚ) =
        4 * R.u * T * L + 4 * R.u * T * itemsLen items := by
      rw [hL]; push_cast; ring
    rw [hsum]
    linarith

/-! ## The visited n-grams -/

theorem map_fst_allLocated (ns : List ℕ) (w : List Char) :
    (allLocated ns w).map Prod.fst = allGrams ns w := by
  unfold allLocated allGrams
  rw [List.map_flatMap]
  congr 1
  funext n
  unfold located grams
  rw [List.map_map]
  rfl

theorem mem_allGrams {ns : List ℕ} {w g : List Char} :
    g ∈ allGrams ns w ↔ ∃ n ∈ ns, g ∈ grams n w := by
  unfold allGrams; rw [List.mem_flatMap]

theorem length_mem_of_allGrams {ns : List ℕ} {w g : List Char} (h : g ∈ allGrams ns w) :
    g.length ∈ ns := by
  obtain ⟨n, hn, hg⟩ := mem_allGrams.1 h
  rw [length_of_mem_grams hg]; exact hn

theorem locs_allLocated {ns : List ℕ} (hnd : ns.Nodup) {g : List Char} (hg : g.length ∈ ns)
    (w : List Char) : Dict.locs (allLocated ns w) g = positionsOf g.length w g := by
  rw [← locs_located, ← allLocated_perm_located hnd hg]
  unfold Dict.locs
  rw [List.filter_filter]
  congr 1
  apply List.filter_congr
  intro p _
  by_cases h : p.1 = g <;> simp [h]

theorem mem_visited {ns : List ℕ} {q w g : List Char} :
    g ∈ visited ns q w ↔ g ∈ allGrams ns q ∧ g ∈ allGrams ns w := by
  unfold visited
  split
  · rw [List.mem_filter, mem_firsts, decide_eq_true_eq]
  · rw [List.mem_filter, mem_firsts, decide_eq_true_eq, and_comm]

theorem nodup_visited (ns : List ℕ) (q w : List Char) : (visited ns q w).Nodup := by
  unfold visited
  split <;> exact (nodup_firsts _).filter _

theorem visited_self (ns : List ℕ) (w : List Char) : visited ns w w = firsts (allGrams ns w) := by
  unfold visited
  rw [if_pos le_rfl, List.filter_eq_self]
  intro g hg
  rw [mem_firsts] at hg
  simpa using hg

/-- The order does not depend on which word is the query, unless both have equally many different
n-grams. -/
theorem visited_comm {ns : List ℕ} {q w : List Char}
    (h : (firsts (allGrams ns q)).length ≠ (firsts (allGrams ns w)).length) :
    visited ns q w = visited ns w q := by
  unfold visited
  rcases lt_or_gt_of_ne h with h | h
  · rw [if_pos h.le, if_neg (by omega)]
  · rw [if_neg (by omega), if_pos (by omega)]

theorem toFinset_visited (ns : List ℕ) (q w : List Char) :
    (visited ns q w).toFinset = gramSet (allLocated ns q) ∩ gramSet (allLocated ns w) := by
  ext g
  rw [List.mem_toFinset, mem_visited, Finset.mem_inter, mem_gramSet, mem_gramSet,
    map_fst_allLocated, map_fst_allLocated]

theorem sum_visited (ns : List ℕ) (q w : List Char) (f : List Char → ℚ) :
    ((visited ns q w).map f).sum =
      ∑ g ∈ gramSet (allLocated ns q) ∩ gramSet (allLocated ns w), f g := by
  rw [← toFinset_visited, List.sum_toFinset _ (nodup_visited ns q w)]

/-- The exact positions of the visited n-grams. -/
def visitedItems (ns : List ℕ) (q w : List Char) : List (List ℚ × List ℚ) :=
  (visited ns q w).map fun g =>
    (Dict.locs (allLocated ns q) g, Dict.locs (allLocated ns w) g)

theorem simSF_eq {ns : List ℕ} (hnd : ns.Nodup) (q w : List Char) :
    simSF R ns q w = ((visitedItems ns q w).map fun i => (i.1.map R.fl, i.2.map R.fl)).foldl
      (setSimStep R) 0 := by
  unfold simSF visitedItems
  rw [List.foldl_map, List.foldl_map]
  apply List.foldl_ext
  intro s g hg
  have hl := length_mem_of_allGrams (mem_visited.1 hg).1
  unfold setSimStep
  simp only [locs_allLocated hnd hl, List.length_map]

theorem unitLocated_allLocated (ns : List ℕ) (w : List Char) {p : List Char × ℚ}
    (hp : p ∈ allLocated ns w) : 0 ≤ p.2 ∧ p.2 ≤ 1 := by
  obtain ⟨n, _, hp⟩ := List.mem_flatMap.1 hp
  exact unitLocated_located n w _ hp

theorem visitedItems_unit (ns : List ℕ) (q w : List Char) :
    ∀ i ∈ visitedItems ns q w, Unit01 i.1 ∧ Unit01 i.2 := by
  intro i hi
  obtain ⟨g, _, rfl⟩ := List.mem_map.1 hi
  exact ⟨fun x hx => unitLocated_allLocated ns q (Dict.mem_locs.1 hx),
    fun x hx => unitLocated_allLocated ns w (Dict.mem_locs.1 hx)⟩

theorem visitedItems_ne (ns : List ℕ) (q w : List Char) :
    ∀ i ∈ visitedItems ns q w, i.1 ≠ [] ∧ i.2 ≠ [] := by
  intro i hi
  obtain ⟨g, hg, rfl⟩ := List.mem_map.1 hi
  rw [mem_visited] at hg
  constructor
  · intro h
    rw [Dict.locs_eq_nil, map_fst_allLocated] at h
    exact h hg.1
  · intro h
    rw [Dict.locs_eq_nil, map_fst_allLocated] at h
    exact h hg.2

theorem itemsLen_visited (ns : List ℕ) (q w : List Char) :
    ((itemsLen (visitedItems ns q w) : ℕ) : ℚ) =
      ∑ g ∈ gramSet (allLocated ns q) ∩ gramSet (allLocated ns w),
        (((Dict.locs (allLocated ns q) g).length : ℚ) + (Dict.locs (allLocated ns w) g).length) := by
  rw [← sum_visited, itemsLen, visitedItems, List.map_map, Nat.cast_list_sum, List.map_map]
  congr 1
  apply List.map_congr_left
  intro g _
  simp

theorem itemsLen_visited_le (ns : List ℕ) (q w : List Char) :
    itemsLen (visitedItems ns q w) ≤ totalCount ns q w := by
  have h : ((itemsLen (visitedItems ns q w) : ℕ) : ℚ) ≤ (totalCount ns q w : ℚ) := by
    rw [itemsLen_visited, totalCount_eq]
    push_cast
    rw [← sum_length_locs (allLocated ns q)
        (U := gramSet (allLocated ns q) ∪ gramSet (allLocated ns w)) Finset.subset_union_left,
      ← sum_length_locs (allLocated ns w)
        (U := gramSet (allLocated ns q) ∪ gramSet (allLocated ns w)) Finset.subset_union_right,
      ← Finset.sum_add_distrib]
    apply Finset.sum_le_sum_of_subset_of_nonneg
    · exact fun g hg => Finset.mem_union_left _ (Finset.mem_inter.1 hg).1
    · intro g _ _; positivity
  exact_mod_cast h

theorem itemsLen_visited_self (ns : List ℕ) (w : List Char) :
    itemsLen (visitedItems ns w w) = totalCount ns w w := by
  have h : ((itemsLen (visitedItems ns w w) : ℕ) : ℚ) = (totalCount ns w w : ℚ) := by
    rw [itemsLen_visited, Finset.inter_self, Finset.sum_add_distrib,
      sum_length_locs _ (le_refl _), totalCount_eq]
    push_cast
    rfl
  exact_mod_cast h

/-! ## The computed similarity and score -/

variable {ns : List ℕ} {q w : List Char}

theorem simSF_le (hnd : ns.Nodup) (hT : totalCount ns q w ≤ 2 ^ 53) :
    simSF R ns q w ≤ (totalCount ns q w : ℚ) := by
  have hl := itemsLen_visited_le ns q w
  have h := setSimFold_le (R := R)
    ((visitedItems ns q w).map fun i => (i.1.map R.fl, i.2.map R.fl))
    (s := 0) (c := 0) (by simp) (by rw [itemsLen_map]; omega)
  rw [itemsMin_map, ← simSF_eq hnd] at h
  refine h.trans ?_
  have := two_mul_itemsMin_le (visitedItems ns q w)
  exact_mod_cast (by omega : 0 + 2 * itemsMin (visitedItems ns q w) ≤ totalCount ns q w)

theorem le_simSF (hnd : ns.Nodup) (hT : totalCount ns q w ≤ 2 ^ 53) :
    (itemsMin (visitedItems ns q w) : ℚ) ≤ simSF R ns q w := by
  have hl := itemsLen_visited_le ns q w
  have h := le_setSimFold (R := R)
    ((visitedItems ns q w).map fun i => (i.1.map R.fl, i.2.map R.fl))
    (s := 0) (c := 0) (by simp) (by rw [itemsLen_map]; omega) (by
      intro i hi
      obtain ⟨j, hj, rfl⟩ := List.mem_map.1 hi
      have := visitedItems_unit ns q w j hj
      exact spread1_map this.1 this.2)
  rw [itemsMin_map, ← simSF_eq hnd, Nat.zero_add] at h
  exact h

theorem simSF_nonneg (hnd : ns.Nodup) (hT : totalCount ns q w ≤ 2 ^ 53) : 0 ≤ simSF R ns q w :=
  le_trans (Nat.cast_nonneg _) (le_simSF hnd hT)

theorem one_le_simSF (hnd : ns.Nodup) (hT : totalCount ns q w ≤ 2 ^ 53) {g : List Char}
    (hq : g ∈ allGrams ns q) (hw : g ∈ allGrams ns w) : 1 ≤ simSF R ns q w := by
  refine le_trans ?_ (le_simSF hnd hT)
  have hg : g ∈ visited ns q w := mem_visited.2 ⟨hq, hw⟩
  have hi : (Dict.locs (allLocated ns q) g, Dict.locs (allLocated ns w) g) ∈
      visitedItems ns q w := List.mem_map.2 ⟨g, hg, rfl⟩
  have hne := visitedItems_ne ns q w _ hi
  have h1 : 1 ≤ min (Dict.locs (allLocated ns q) g).length (Dict.locs (allLocated ns w) g).length :=
    le_min (List.length_pos_iff.2 hne.1) (List.length_pos_iff.2 hne.2)
  have h2 : min (Dict.locs (allLocated ns q) g).length (Dict.locs (allLocated ns w) g).length ≤
      itemsMin (visitedItems ns q w) :=
    List.le_sum_of_mem (List.mem_map_of_mem (f := fun i : List ℚ × List ℚ =>
      min i.1.length i.2.length) hi)
  exact_mod_cast h1.trans h2

theorem simSF_self (hnd : ns.Nodup) (w : List Char) (hT : totalCount ns w w ≤ 2 ^ 53) :
    simSF R ns w w = (totalCount ns w w : ℚ) := by
  have h := setSimFold_self (R := R)
    ((visitedItems ns w w).map fun i => (i.1.map R.fl, i.2.map R.fl)) (by
      intro i hi
      obtain ⟨j, hj, rfl⟩ := List.mem_map.1 hi
      obtain ⟨g, _, rfl⟩ := List.mem_map.1 hj
      rfl) 0 (by rw [itemsLen_map, itemsLen_visited_self]; omega)
  rw [itemsLen_map, itemsLen_visited_self, Nat.zero_add, Nat.cast_zero, ← simSF_eq hnd] at h
  exact h

theorem simSF_err (hnd : ns.Nodup) (hT : totalCount ns q w ≤ 2 ^ 53)
    (hTu : (totalCount ns q w : ℚ) * R.u ≤ 1 / 2) :
    |simSF R ns q w - locSim (allLocated ns q) (allLocated ns w)| ≤
      4 * (totalCount ns q w : ℚ) ^ 2 * R.u := by
  have hlen := itemsLen_visited_le ns q w
  have h := setSimFold_err (R := R) hT hTu (visitedItems ns q w) (visitedItems_unit ns q w)
    (by
      intro i hi
      have := visitedItems_ne ns q w i hi
      have h1 := List.length_pos_iff.2 this.1
      have h2 := List.length_pos_iff.2 this.2
      omega) (s := 0) (t := 0) (c := 0) le_rfl (by simp) (by omega)
  have e : ((visitedItems ns q w).map fun i => contrib i.1 i.2).sum =
      locSim (allLocated ns q) (allLocated ns w) := by
    rw [visitedItems, List.map_map]
    exact sum_visited ns q w
      (fun g => contrib (Dict.locs (allLocated ns q) g) (Dict.locs (allLocated ns w) g))
  rw [e, zero_add, sub_zero, abs_zero, zero_add, ← simSF_eq hnd] at h
  refine h.trans ?_
  have hu := R.u_pos
  have hq : ((itemsLen (visitedItems ns q w) : ℕ) : ℚ) ≤ (totalCount ns q w : ℚ) := by
    exact_mod_cast hlen
  calc 4 * R.u * (totalCount ns q w : ℚ) * ((itemsLen (visitedItems ns q w) : ℕ) : ℚ) ≤
      4 * R.u * (totalCount ns q w : ℚ) * (totalCount ns q w : ℚ) :=
        mul_le_mul_of_nonneg_left hq (by positivity)
    _ = _ := by ring

/-- The limits of the score have no effect. -/
theorem scoreSF_eq (hnd : ns.Nodup) (hT : totalCount ns q w ≤ 2 ^ 53) :
    scoreSF R ns q w = R.fl (simSF R ns q w / (totalCount ns q w : ℚ)) := by
  unfold scoreSF
  have h1 : simSF R ns q w / (totalCount ns q w : ℚ) ≤ ((1 : ℕ) : ℚ) := by
    rw [Nat.cast_one]
    exact div_le_one_of_le₀ (simSF_le hnd hT) (Nat.cast_nonneg _)
  have h2 := fl_le_nat (R := R) (by norm_num) h1
  rw [Nat.cast_one] at h2
  have h3 : 0 ≤ R.fl (simSF R ns q w / (totalCount ns q w : ℚ)) :=
    fl_nonneg (div_nonneg (simSF_nonneg hnd hT) (Nat.cast_nonneg _))
  rw [min_eq_right h2, max_eq_right h3]

theorem scoreSF_nonneg : 0 ≤ scoreSF R ns q w := le_max_left _ _

theorem scoreSF_le_one : scoreSF R ns q w ≤ 1 := max_le zero_le_one (min_le_left _ _)

theorem scoreSF_err (hnd : ns.Nodup) (hT : totalCount ns q w ≤ 2 ^ 53)
    (hTu : (totalCount ns q w : ℚ) * R.u ≤ 1 / 2) :
    |scoreSF R ns q w - score ns q w| ≤ 5 * (totalCount ns q w : ℚ) * R.u := by
  have hu := R.u_pos
  rcases Nat.eq_zero_or_pos (totalCount ns q w) with h0 | h0
  · rw [scoreSF_eq hnd hT, score_eq hnd, h0]
    simp [fl_zero]
  have ht : (1 : ℚ) ≤ (totalCount ns q w : ℚ) := by exact_mod_cast h0
  have e := simSF_err (R := R) hnd hT hTu
  rw [scoreSF_eq hnd hT, score_eq hnd]
  have hle := simSF_le (R := R) hnd hT
  have hge := simSF_nonneg (R := R) hnd hT
  set T : ℚ := (totalCount ns q w : ℚ) with hTd
  set S := simSF R ns q w
  set L := locSim (allLocated ns q) (allLocated ns w)
  have h1 := R.err (S / T)
  rw [abs_of_nonneg (div_nonneg hge (by linarith))] at h1
  have h2 : S / T ≤ 1 := div_le_one_of_le₀ hle (by linarith)
  have h3 : |S / T - L / T| ≤ 4 * T * R.u := by
    rw [← sub_div, abs_div, abs_of_pos (by linarith : 0 < T), div_le_iff₀ (by linarith)]
    calc |S - L| ≤ 4 * T ^ 2 * R.u := e
      _ = _ := by ring
  have h4 : R.u * (S / T) ≤ T * R.u := by nlinarith
  have a1 := abs_le.1 h1
  have a2 := abs_le.1 h3
  rw [abs_le]
  constructor <;> linarith

theorem scoreSF_self (hnd : ns.Nodup) (w : List Char) (h0 : 0 < totalCount ns w w)
    (hT : totalCount ns w w ≤ 2 ^ 53) : scoreSF R ns w w = 1 := by
  have : (totalCount ns w w : ℚ) ≠ 0 := by exact_mod_cast h0.ne'
  rw [scoreSF_eq hnd hT, simSF_self hnd w hT, div_self this]
  have := R.nat 1 (by norm_num)
  simpa using this

/-- Which of the two words is the query does not matter, unless both have equally many different
n-grams. -/
theorem scoreSF_comm (h : (firsts (allGrams ns q)).length ≠ (firsts (allGrams ns w)).length) :
    scoreSF R ns q w = scoreSF R ns w q := by
  unfold scoreSF
  have e : simSF R ns q w = simSF R ns w q := by
    unfold simSF
    rw [visited_comm h]
    apply List.foldl_ext
    intro s g _
    rw [emdF_comm, add_comm ((positionsOf g.length q g).length : ℚ)]
  have e2 : totalCount ns q w = totalCount ns w q := by
    rw [totalCount_eq, totalCount_eq, add_comm]
  rw [e, e2]

/-- Two different words with at most 8192 n-grams are at least `1 / 2 ^ 24` apart, before
normalising. -/
theorem setDist_ge (hnd : ns.Nodup) (hpos : ∀ n ∈ ns, 1 ≤ n) (ht : 0 < totalCount ns q w)
    (hT : totalCount ns q w ≤ 8192) (hne : q ≠ w) :
    1 / 16777216 ≤
      (totalCount ns q w : ℚ) - locSim (allLocated ns q) (allLocated ns w) := by
  have hfull : locSim (allLocated ns q) (allLocated ns w) ≠ (totalCount ns q w : ℚ) := by
    intro h
    apply hne
    rw [← score_eq_one_iff hnd hpos ht, score_eq hnd, h, div_self]
    exact_mod_cast ht.ne'
  have e := sub_locSim_eq_sum_emd (allLocated ns q) (allLocated ns w)
    (Finset.subset_union_left :
      gramSet (allLocated ns q) ⊆ gramSet (allLocated ns q) ∪ gramSet (allLocated ns w))
    Finset.subset_union_right
  have ht2 : (totalCount ns q w : ℚ) =
      ((allLocated ns q).length : ℚ) + (allLocated ns w).length := by
    rw [totalCount_eq]; push_cast; rfl
  rw [ht2, e]
  obtain ⟨g, hg, h0⟩ : ∃ g ∈ gramSet (allLocated ns q) ∪ gramSet (allLocated ns w),
      emd (Dict.locs (allLocated ns q) g) (Dict.locs (allLocated ns w) g) ≠ 0 := by
    by_contra hcon
    push Not at hcon
    have hz := Finset.sum_eq_zero hcon
    rw [hz] at e
    apply hfull
    rw [ht2]
    linarith
  refine le_trans ?_ (Finset.single_le_sum (f := fun g => emd (Dict.locs (allLocated ns q) g)
    (Dict.locs (allLocated ns w) g)) (fun _ _ => emd_nonneg _ _) hg)
  have hgl : g.length ∈ ns := by
    rw [Finset.mem_union, mem_gramSet, mem_gramSet, map_fst_allLocated, map_fst_allLocated] at hg
    rcases hg with hg | hg <;> exact length_mem_of_allGrams hg
  rw [locs_allLocated hnd hgl, locs_allLocated hnd hgl] at h0 ⊢
  rw [← locs_located, ← locs_located] at h0 ⊢
  refine le_trans ?_ (emd_grid (M₁ := max 1 (count g.length q - 1))
    (M₂ := max 1 (count g.length w - 1)) (by positivity) (by positivity) _ _
    (located_grid _ q g) (located_grid _ w g) h0)
  have hc : count g.length q + count g.length w ≤ totalCount ns q w :=
    List.le_sum_of_mem (List.mem_map_of_mem (f := fun n => count n q + count n w) hgl)
  have hm : max 1 (count g.length q - 1) * max 1 (count g.length w - 1) ≤ 16777216 := by
    have hs : max 1 (count g.length q - 1) + max 1 (count g.length w - 1) ≤ 8192 := by omega
    generalize max 1 (count g.length q - 1) = x at hs
    generalize max 1 (count g.length w - 1) = y at hs
    zify at hs ⊢
    nlinarith [sq_nonneg ((x : ℤ) - y)]
  have hm1 : (0 : ℚ) < ((max 1 (count g.length q - 1) : ℕ) : ℚ) *
      ((max 1 (count g.length w - 1) : ℕ) : ℚ) := by positivity
  apply one_div_le_one_div_of_le hm1
  exact_mod_cast hm

/-- With Python's floats and at most 8192 n-grams, the computed score is 1 only for equal words. -/
theorem scoreSF_eq_one (hnd : ns.Nodup) (hpos : ∀ n ∈ ns, 1 ≤ n) (ht : 0 < totalCount ns q w)
    (hT : totalCount ns q w ≤ 8192) (h : scoreSF binary64 ns q w = 1) : q = w := by
  by_contra hne
  have hu : binary64.u = 1 / 9007199254740992 := by
    show (2 : ℚ)⁻¹ ^ 53 = _
    norm_num
  have hd := setDist_ge hnd hpos ht hT hne
  have hT53 : totalCount ns q w ≤ 2 ^ 53 := hT.trans (by norm_num)
  have hTq : (totalCount ns q w : ℚ) ≤ 8192 := by exact_mod_cast hT
  have ht1 : (1 : ℚ) ≤ (totalCount ns q w : ℚ) := by exact_mod_cast ht
  have e := abs_le.1 (simSF_err (R := binary64) hnd hT53 (by rw [hu]; linarith))
  have hge := simSF_nonneg (R := binary64) hnd hT53
  rw [scoreSF_eq hnd hT53] at h
  rw [hu] at e
  set T : ℚ := (totalCount ns q w : ℚ) with hTd
  set S := simSF binary64 ns q w
  have hT2 : T ^ 2 ≤ 67108864 := by nlinarith
  have hS : S ≤ T - 1 / 33554432 := by
    have : 4 * T ^ 2 * (1 / 9007199254740992) ≤ 1 / 33554432 := by
      rw [show (1 : ℚ) / 33554432 = 4 * 67108864 * (1 / 9007199254740992) by norm_num]
      exact mul_le_mul_of_nonneg_right (by linarith) (by norm_num)
    linarith [e.2]
  have h1 := fl_upper (R := binary64) (x := S / T) (div_nonneg hge (by linarith))
  rw [h, hu] at h1
  have h2 : S / T ≤ 1 - 1 / 274877906944 := by
    rw [div_le_iff₀ (by linarith)]
    nlinarith
  linarith

end Fp
end Verif
