import Verif.Emd.Dp
import Verif.Emd.Spec
import Mathlib.Data.Multiset.Sort
import Mathlib.Tactic.Ring

/-!
# The alignment recursion on sorted lists is optimal among all transport plans
-/

namespace Verif

open EmdSpec

theorem planCost_nil_left (Y : Multiset ℚ) {M : Multiset (ℚ × ℚ)} (h : IsPlan 0 Y M) : M = 0 := by
  have := le_antisymm h.1 (Multiset.zero_le _)
  simpa using this

theorem planCost_nil_right (X : Multiset ℚ) {M : Multiset (ℚ × ℚ)} (h : IsPlan X 0 M) : M = 0 := by
  have := le_antisymm h.2 (Multiset.zero_le _)
  simpa using this

theorem plan_swap {X Y : Multiset ℚ} {M : Multiset (ℚ × ℚ)} (h : IsPlan X Y M) :
    IsPlan Y X (M.map Prod.swap) := by
  refine ⟨?_, ?_⟩
  · rw [Multiset.map_map]; exact h.2
  · rw [Multiset.map_map]; exact h.1

theorem planCost_swap (X Y : Multiset ℚ) (M : Multiset (ℚ × ℚ)) :
    planCost Y X (M.map Prod.swap) = planCost X Y M := by
  simp only [planCost, Multiset.map_map, Multiset.card_map, Function.comp_def, Prod.fst_swap,
    Prod.snd_swap]
  simp only [abs_sub_comm]
  ring

/-- Either the head is not used by the sub-multiset, or it is. -/
theorem le_cons_cases {α : Type} [DecidableEq α] {a : α} {S T : Multiset α} (h : S ≤ a ::ₘ T) :
    S ≤ T ∨ a ∈ S := by
  by_cases ha : a ∈ S
  · exact Or.inr ha
  · exact Or.inl ((Multiset.le_cons_of_notMem ha).1 h)

theorem exists_pair_of_mem_fst {a : ℚ} {M : Multiset (ℚ × ℚ)} (h : a ∈ M.map Prod.fst) :
    ∃ b M', M = (a, b) ::ₘ M' := by
  obtain ⟨⟨a', b⟩, hm, rfl⟩ := Multiset.mem_map.1 h
  obtain ⟨M', rfl⟩ := Multiset.exists_cons_of_mem hm
  exact ⟨b, M', rfl⟩

theorem exists_pair_of_mem_snd {b : ℚ} {M : Multiset (ℚ × ℚ)} (h : b ∈ M.map Prod.snd) :
    ∃ a M', M = (a, b) ::ₘ M' := by
  obtain ⟨⟨a, b'⟩, hm, rfl⟩ := Multiset.mem_map.1 h
  obtain ⟨M', rfl⟩ := Multiset.exists_cons_of_mem hm
  exact ⟨a, M', rfl⟩

/-- Uncrossing: for `a ≤ x`, `b ≤ y` the parallel pairing is no worse than the crossed one. -/
theorem uncross {x a y b : ℚ} (h1 : a ≤ x) (h2 : b ≤ y) :
    |x - y| + |a - b| ≤ |x - b| + |a - y| := by
  rcases abs_cases (x - y) with ⟨e1, _⟩ | ⟨e1, _⟩ <;> rcases abs_cases (a - b) with ⟨e2, _⟩ | ⟨e2, _⟩ <;>
    rcases abs_cases (x - b) with ⟨e3, _⟩ | ⟨e3, _⟩ <;>
    rcases abs_cases (a - y) with ⟨e4, _⟩ | ⟨e4, _⟩ <;> rw [e1, e2, e3, e4] <;> linarith

theorem planCost_cons (x y : ℚ) (X Y : Multiset ℚ) (M : Multiset (ℚ × ℚ)) :
    planCost (x ::ₘ X) (y ::ₘ Y) ((x, y) ::ₘ M) = |x - y| + planCost X Y M := by
  simp only [planCost, Multiset.map_cons, Multiset.sum_cons, Multiset.card_cons]
  push_cast; ring

theorem planCost_skip_left (x : ℚ) (X Y : Multiset ℚ) (M : Multiset (ℚ × ℚ)) :
    planCost (x ::ₘ X) Y M = 1 + planCost X Y M := by
  simp only [planCost, Multiset.card_cons]
  push_cast; ring

theorem planCost_skip_right (y : ℚ) (X Y : Multiset ℚ) (M : Multiset (ℚ × ℚ)) :
    planCost X (y ::ₘ Y) M = 1 + planCost X Y M := by
  simp only [planCost, Multiset.card_cons]
  push_cast; ring

/-- On lists whose heads dominate (descending order) the recursion is a lower bound. -/
theorem align_le_planCost (xs ys : List ℚ) :
    xs.Pairwise (· ≥ ·) → ys.Pairwise (· ≥ ·) →
    ∀ M, IsPlan (xs : Multiset ℚ) (ys : Multiset ℚ) M →
      align absd xs ys ≤ planCost (xs : Multiset ℚ) (ys : Multiset ℚ) M := by
  induction xs, ys using align_induction with
  | nil_left ys =>
    intro _ _ M hM
    have := planCost_nil_left _ hM
    subst this
    simp [planCost]
  | nil_right x xs =>
    intro _ _ M hM
    have := planCost_nil_right _ hM
    subst this
    simp [planCost]
  | cons x xs y ys h1 h2 h3 =>
    intro hx hy M hM
    rw [List.pairwise_cons] at hx hy
    simp only [← Multiset.cons_coe] at hM h2 h3 ⊢
    rcases le_cons_cases hM.1 with hu | hu
    · have := h2 hx.2 (List.pairwise_cons.2 hy) M ⟨hu, hM.2⟩
      have h' := align_le_left absd x xs (y :: ys)
      rw [planCost_skip_left]
      linarith
    rcases le_cons_cases hM.2 with hv | hv
    · have := h3 (List.pairwise_cons.2 hx) hy.2 M ⟨hM.1, hv⟩
      have h' := align_le_right absd (x :: xs) y ys
      rw [planCost_skip_right]
      linarith
    obtain ⟨b, M', rfl⟩ := exists_pair_of_mem_fst hu
    have hm := align_le_match absd x xs y ys
    by_cases hby : b = y
    · subst hby
      have := h1 hx.2 hy.2 M' ⟨by simpa [-Multiset.cons_coe] using hM.1,
        by simpa [-Multiset.cons_coe] using hM.2⟩
      rw [planCost_cons]
      have e : absd x b = |x - b| := rfl
      rw [e] at hm
      linarith
    · have hv' : y ∈ M'.map Prod.snd := by
        simp only [Multiset.map_cons, Multiset.mem_cons] at hv
        rcases hv with h | h
        · exact absurd h.symm hby
        · exact h
      obtain ⟨a, M'', rfl⟩ := exists_pair_of_mem_snd hv'
      have hp : IsPlan (xs : Multiset ℚ) (ys : Multiset ℚ) ((a, b) ::ₘ M'') := by
        refine ⟨?_, ?_⟩
        · simpa [-Multiset.cons_coe] using hM.1
        · have := hM.2
          simp only [Multiset.map_cons] at this ⊢
          rw [Multiset.cons_swap] at this
          simpa [-Multiset.cons_coe] using this
      have hle := h1 hx.2 hy.2 _ hp
      have ha : a ≤ x := by
        have : a ∈ ((a, b) ::ₘ M'').map Prod.fst := by simp
        have := Multiset.mem_of_le hp.1 this
        exact hx.1 a (by simpa using this)
      have hb : b ≤ y := by
        have : b ∈ ((a, b) ::ₘ M'').map Prod.snd := by simp
        have := Multiset.mem_of_le hp.2 this
        exact hy.1 b (by simpa using this)
      have hc := uncross ha hb
      have e : absd x y = |x - y| := rfl
      rw [e] at hm
      have e1 : planCost (x ::ₘ (xs : Multiset ℚ)) (y ::ₘ (ys : Multiset ℚ))
          ((x, b) ::ₘ (a, y) ::ₘ M'') =
          |x - b| + |a - y| - |a - b| + planCost (xs : Multiset ℚ) (ys : Multiset ℚ) ((a, b) ::ₘ M'') := by
        simp only [planCost, Multiset.map_cons, Multiset.sum_cons, Multiset.card_cons]
        push_cast; ring
      rw [e1]
      linarith

/-- The recursion is the cost of some plan (no ordering needed). -/
theorem exists_plan_align (xs ys : List ℚ) :
    ∃ M, IsPlan (xs : Multiset ℚ) (ys : Multiset ℚ) M ∧
      align absd xs ys = planCost (xs : Multiset ℚ) (ys : Multiset ℚ) M := by
  induction xs, ys using align_induction with
  | nil_left ys => exact ⟨0, by simp [IsPlan, Multiset.zero_le], by simp [planCost]⟩
  | nil_right x xs => exact ⟨0, by simp [IsPlan, Multiset.zero_le], by simp [planCost]⟩
  | cons x xs y ys h1 h2 h3 =>
    simp only [← Multiset.cons_coe] at h2 h3 ⊢
    rcases align_cons_cases absd x xs y ys with h | h | h
    · obtain ⟨M, hM, e⟩ := h1
      refine ⟨(x, y) ::ₘ M, ⟨by simpa [-Multiset.cons_coe] using hM.1,
        by simpa [-Multiset.cons_coe] using hM.2⟩, ?_⟩
      rw [h, e, planCost_cons]; rfl
    · obtain ⟨M, hM, e⟩ := h2
      refine ⟨M, ⟨hM.1.trans (Multiset.le_cons_self _ _), hM.2⟩, ?_⟩
      rw [h, e, planCost_skip_left]
    · obtain ⟨M, hM, e⟩ := h3
      refine ⟨M, ⟨hM.1, hM.2.trans (Multiset.le_cons_self _ _)⟩, ?_⟩
      rw [h, e, planCost_skip_right]

theorem pySorted_perm (xs : List ℚ) : (pySorted xs).Perm xs := List.perm_insertionSort _ _

theorem pySorted_pairwise (xs : List ℚ) : (pySorted xs).Pairwise (· ≤ ·) :=
  List.pairwise_insertionSort _ _

theorem pySorted_reverse_pairwise (xs : List ℚ) : (pySorted xs).reverse.Pairwise (· ≥ ·) := by
  rw [List.pairwise_reverse]; exact pySorted_pairwise xs

theorem pySorted_reverse_coe (xs : List ℚ) :
    ((pySorted xs).reverse : Multiset ℚ) = (xs : Multiset ℚ) :=
  Quotient.sound ((List.reverse_perm _).trans (pySorted_perm xs))

/-- Any descending rearrangements compute the same optimum. -/
theorem isEmd_align_desc {xs ys : List ℚ} (hx : xs.Pairwise (· ≥ ·)) (hy : ys.Pairwise (· ≥ ·)) :
    IsEmd xs ys (align absd xs ys) := by
  refine ⟨exists_plan_align xs ys, ?_⟩
  rintro c ⟨M, hM, rfl⟩
  exact align_le_planCost xs ys hx hy M hM

theorem isEmd_emd (xs ys : List ℚ) : IsEmd xs ys (emd xs ys) := by
  have h := isEmd_align_desc (pySorted_reverse_pairwise xs) (pySorted_reverse_pairwise ys)
  unfold IsEmd at *
  rw [pySorted_reverse_coe, pySorted_reverse_coe] at h
  rw [emd_eq_align]; exact h

end Verif
