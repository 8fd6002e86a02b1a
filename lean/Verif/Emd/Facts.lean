import Verif.Emd.Optimal

/-!
# Helper facts about `emd`
-/

namespace Verif

open EmdSpec

theorem emd_unique {xs ys : List ℚ} {c : ℚ} (h : IsEmd xs ys c) : emd xs ys = c :=
  (isEmd_emd xs ys).unique h

theorem planCosts_swap (X Y : Multiset ℚ) : planCosts X Y = planCosts Y X := by
  have key : ∀ X Y, planCosts X Y ⊆ planCosts Y X := by
    rintro X Y c ⟨M, hM, rfl⟩
    exact ⟨M.map Prod.swap, plan_swap hM, (planCost_swap X Y M).symm⟩
  exact Set.Subset.antisymm (key X Y) (key Y X)

theorem emd_comm (xs ys : List ℚ) : emd xs ys = emd ys xs := by
  apply emd_unique
  unfold IsEmd
  rw [planCosts_swap]
  exact isEmd_emd ys xs

theorem emd_perm {xs xs' ys ys' : List ℚ} (hx : xs.Perm xs') (hy : ys.Perm ys') :
    emd xs ys = emd xs' ys' := by
  apply emd_unique
  unfold IsEmd
  rw [show (xs : Multiset ℚ) = xs' from Quotient.sound hx,
    show (ys : Multiset ℚ) = ys' from Quotient.sound hy]
  exact isEmd_emd xs' ys'

theorem emd_nonneg (xs ys : List ℚ) : 0 ≤ emd xs ys := by
  rw [emd_eq_align]; exact align_nonneg absd_nonneg _ _

theorem emd_triangle (xs ys zs : List ℚ) : emd xs zs ≤ emd xs ys + emd ys zs := by
  simp only [emd_eq_align]
  exact align_triangle absd_nonneg absd_nonneg (fun a b c => absd_triangle a b c) _ _ _

theorem length_pySorted (xs : List ℚ) : (pySorted xs).length = xs.length :=
  (pySorted_perm xs).length_eq

theorem sub_le_emd (xs ys : List ℚ) : (xs.length : ℚ) - ys.length ≤ emd xs ys := by
  have := sub_le_align absd_nonneg (pySorted xs).reverse (pySorted ys).reverse
  rw [emd_eq_align]
  simpa [length_pySorted] using this

theorem abs_sub_le_emd (xs ys : List ℚ) : |(xs.length : ℚ) - ys.length| ≤ emd xs ys := by
  rw [abs_le]
  have h1 := sub_le_emd xs ys
  have h2 := sub_le_emd ys xs
  rw [emd_comm] at h2
  constructor <;> linarith

theorem emd_le_add (xs ys : List ℚ) : emd xs ys ≤ xs.length + ys.length := by
  have := align_le_add absd (pySorted xs).reverse (pySorted ys).reverse
  rw [emd_eq_align]
  simpa [length_pySorted] using this

theorem align_le_max {α β : Type} {c : α → β → ℚ} (xs : List α) (ys : List β)
    (h : ∀ x ∈ xs, ∀ y ∈ ys, c x y ≤ 1) :
    align c xs ys ≤ max xs.length ys.length := by
  induction xs generalizing ys with
  | nil => simp
  | cons x xs ih =>
    cases ys with
    | nil => simp
    | cons y ys =>
      have h1 := align_le_match c x xs y ys
      have h2 := h x (by simp) y (by simp)
      have h3 := ih ys (fun a ha b hb => h a (by simp [ha]) b (by simp [hb]))
      have : ((max (xs.length + 1) (ys.length + 1) : ℕ) : ℚ) =
          1 + ((max xs.length ys.length : ℕ) : ℚ) := by
        rw [Nat.add_max_add_right]; push_cast; ring
      simp only [List.length_cons]
      push_cast at this h3 ⊢
      rw [this]; linarith

theorem emd_le_max {xs ys : List ℚ} (h : Spread1 xs ys) :
    emd xs ys ≤ max xs.length ys.length := by
  have := align_le_max (c := absd) (pySorted xs).reverse (pySorted ys).reverse (by
    intro x hx y hy
    rw [List.mem_reverse, (pySorted_perm _).mem_iff] at hx hy
    exact h x hx y hy)
  rw [emd_eq_align]
  simpa [length_pySorted] using this

theorem plan_card_le_left {X Y : Multiset ℚ} {M : Multiset (ℚ × ℚ)} (h : IsPlan X Y M) :
    M.card ≤ X.card := by
  simpa using Multiset.card_le_card h.1

theorem plan_card_le_right {X Y : Multiset ℚ} {M : Multiset (ℚ × ℚ)} (h : IsPlan X Y M) :
    M.card ≤ Y.card := by
  simpa using Multiset.card_le_card h.2

theorem sum_abs_nonneg (M : Multiset (ℚ × ℚ)) : 0 ≤ (M.map fun p => |p.1 - p.2|).sum := by
  induction M using Multiset.induction_on with
  | empty => simp
  | cons p M ih =>
    simp only [Multiset.map_cons, Multiset.sum_cons]
    have := abs_nonneg (p.1 - p.2)
    linarith

theorem sum_abs_eq_zero {M : Multiset (ℚ × ℚ)} (h : (M.map fun p => |p.1 - p.2|).sum = 0) :
    M.map Prod.fst = M.map Prod.snd := by
  induction M using Multiset.induction_on with
  | empty => rfl
  | cons p M ih =>
    simp only [Multiset.map_cons, Multiset.sum_cons] at h ⊢
    have h1 := abs_nonneg (p.1 - p.2)
    have h2 := sum_abs_nonneg M
    have h3 : |p.1 - p.2| = 0 := by linarith
    rw [ih (by linarith), show p.1 = p.2 by rw [abs_eq_zero] at h3; linarith]

theorem emd_eq_zero_iff (xs ys : List ℚ) : emd xs ys = 0 ↔ xs.Perm ys := by
  constructor
  · intro h
    obtain ⟨⟨M, hM, e⟩, _⟩ := isEmd_emd xs ys
    rw [h] at e
    have h1 := plan_card_le_left hM
    have h2 := plan_card_le_right hM
    have h1' : (M.card : ℚ) ≤ (xs : Multiset ℚ).card := by exact_mod_cast h1
    have h2' : (M.card : ℚ) ≤ (ys : Multiset ℚ).card := by exact_mod_cast h2
    have h3 := sum_abs_nonneg M
    unfold planCost at e
    have e1 : (M.map fun p => |p.1 - p.2|).sum = 0 := by linarith
    have e2 : (M.card : ℚ) = (xs : Multiset ℚ).card := by linarith
    have e3 : (M.card : ℚ) = (ys : Multiset ℚ).card := by linarith
    have e2' : M.card = (xs : Multiset ℚ).card := by exact_mod_cast e2
    have e3' : M.card = (ys : Multiset ℚ).card := by exact_mod_cast e3
    have f1 := Multiset.eq_of_le_of_card_le hM.1 (by simp only [Multiset.card_map]; omega)
    have f2 := Multiset.eq_of_le_of_card_le hM.2 (by simp only [Multiset.card_map]; omega)
    rw [sum_abs_eq_zero e1] at f1
    exact Multiset.coe_eq_coe.1 (f1.symm.trans f2)
  · intro h
    apply le_antisymm _ (emd_nonneg _ _)
    rw [emd_perm h (List.Perm.refl ys)]
    apply (isEmd_emd ys ys).2
    refine ⟨(ys : Multiset ℚ).map (fun a => (a, a)), ⟨?_, ?_⟩, ?_⟩
    · simp only [Multiset.map_map, Function.comp_def, Multiset.map_id', le_refl]
    · simp only [Multiset.map_map, Function.comp_def, Multiset.map_id', le_refl]
    · simp [planCost, Function.comp_def]

end Verif
