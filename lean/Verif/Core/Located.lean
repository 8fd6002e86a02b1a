import Verif.Emd.Facts
import Verif.Py.Dict
import Mathlib.Algebra.BigOperators.Group.Finset.Piecewise
import Mathlib.Algebra.BigOperators.Ring.Finset
import Mathlib.Algebra.Order.BigOperators.Group.Finset

/-!
# Located n-grams

A word is represented by the list of its n-grams with their relative positions. This file
proves the facts about sums over n-grams that `ngram_movers_distance`, `WordList` and `WordSet`
have in common. `γ` is the type of n-grams.
-/

namespace Verif

open EmdSpec

variable {γ : Type} [DecidableEq γ]

/-- Similarity contributed by one n-gram occurring at positions `p` and `q`. -/
def contrib (p q : List ℚ) : ℚ := p.length + q.length - emd p q

theorem emd_nil_left (p : List ℚ) : emd [] p = p.length := by
  apply le_antisymm
  · simpa using emd_le_add [] p
  · have := sub_le_emd p []
    rw [emd_comm] at this
    simpa using this

theorem emd_nil_right (p : List ℚ) : emd p [] = p.length := by
  rw [emd_comm, emd_nil_left]

theorem emd_self (p : List ℚ) : emd p p = 0 := (emd_eq_zero_iff p p).2 (List.Perm.refl p)

@[simp] theorem contrib_nil_left (p : List ℚ) : contrib [] p = 0 := by simp [contrib, emd_nil_left]
@[simp] theorem contrib_nil_right (p : List ℚ) : contrib p [] = 0 := by simp [contrib, emd_nil_right]
theorem contrib_self (p : List ℚ) : contrib p p = 2 * p.length := by simp [contrib, emd_self]; ring
theorem contrib_comm (p q : List ℚ) : contrib p q = contrib q p := by
  simp [contrib, emd_comm p q]; ring
theorem contrib_nonneg (p q : List ℚ) : 0 ≤ contrib p q := by
  have := emd_le_add p q; unfold contrib; linarith
theorem contrib_le_two_mul (p q : List ℚ) : contrib p q ≤ 2 * p.length := by
  have := sub_le_emd q p; rw [emd_comm] at this; unfold contrib; linarith
theorem contrib_perm {p p' q q' : List ℚ} (hp : p.Perm p') (hq : q.Perm q') :
    contrib p q = contrib p' q' := by
  unfold contrib; rw [emd_perm hp hq, hp.length_eq, hq.length_eq]

theorem min_le_contrib {p q : List ℚ} (h : Spread1 p q) :
    min (p.length : ℚ) q.length ≤ contrib p q := by
  have h5 : emd p q ≤ max (p.length : ℚ) q.length := by exact_mod_cast emd_le_max h
  have h6 := min_add_max (p.length : ℚ) q.length
  unfold contrib; linarith

theorem contrib_le_two_min (p q : List ℚ) :
    contrib p q ≤ 2 * min (p.length : ℚ) q.length := by
  rcases le_total (p.length : ℚ) q.length with h | h
  · rw [min_eq_left h]; exact contrib_le_two_mul p q
  · rw [min_eq_right h, contrib_comm]; exact contrib_le_two_mul q p

/-- The n-grams of a located list. -/
def gramSet (L : List (γ × ℚ)) : Finset γ := (L.map Prod.fst).toFinset

theorem mem_gramSet {L : List (γ × ℚ)} {g : γ} : g ∈ gramSet L ↔ g ∈ L.map Prod.fst := by
  simp [gramSet]

theorem locs_nil_of_notMem {L : List (γ × ℚ)} {g : γ} (h : g ∉ gramSet L) :
    Dict.locs L g = [] := by
  rw [Dict.locs_eq_nil]; rwa [mem_gramSet] at h

/-- Total similarity of two located lists. -/
def locSim (L₁ L₂ : List (γ × ℚ)) : ℚ :=
  ∑ g ∈ gramSet L₁ ∩ gramSet L₂, contrib (Dict.locs L₁ g) (Dict.locs L₂ g)

theorem locSim_eq_sum {L₁ L₂ : List (γ × ℚ)} {U : Finset γ} (h : gramSet L₁ ∩ gramSet L₂ ⊆ U) :
    locSim L₁ L₂ = ∑ g ∈ U, contrib (Dict.locs L₁ g) (Dict.locs L₂ g) := by
  unfold locSim
  apply Finset.sum_subset h
  intro g _ hg
  rw [Finset.mem_inter, not_and_or] at hg
  rcases hg with hg | hg <;> simp [locs_nil_of_notMem hg]

theorem sum_length_locs (L : List (γ × ℚ)) {U : Finset γ} (h : gramSet L ⊆ U) :
    ∑ g ∈ U, ((Dict.locs L g).length : ℚ) = L.length := by
  induction L with
  | nil => simp [Dict.locs]
  | cons p L ih =>
    have hp : p.1 ∈ U := h (by simp [gramSet])
    have hL : gramSet L ⊆ U := fun g hg => h (by simp [gramSet] at hg ⊢; tauto)
    have e : ∀ g, ((Dict.locs (p :: L) g).length : ℚ) =
        (if p.1 = g then 1 else 0) + ((Dict.locs L g).length : ℚ) := by
      intro g
      by_cases hg : p.1 = g
      · simp [Dict.locs, hg]; ring
      · simp [Dict.locs, hg]
    simp only [e, Finset.sum_add_distrib, ih hL, Finset.sum_ite_eq, hp, if_true, List.length_cons]
    push_cast; ring

/-- Complement identity: total count minus similarity is the summed transport cost. -/
theorem sub_locSim_eq_sum_emd (L₁ L₂ : List (γ × ℚ)) {U : Finset γ}
    (h₁ : gramSet L₁ ⊆ U) (h₂ : gramSet L₂ ⊆ U) :
    (L₁.length : ℚ) + L₂.length - locSim L₁ L₂ =
      ∑ g ∈ U, emd (Dict.locs L₁ g) (Dict.locs L₂ g) := by
  rw [locSim_eq_sum (fun g hg => h₁ (Finset.mem_inter.1 hg).1), ← sum_length_locs L₁ h₁,
    ← sum_length_locs L₂ h₂, ← Finset.sum_add_distrib, ← Finset.sum_sub_distrib]
  apply Finset.sum_congr rfl
  intro g _
  unfold contrib; ring

theorem locSim_comm (L₁ L₂ : List (γ × ℚ)) : locSim L₁ L₂ = locSim L₂ L₁ := by
  unfold locSim
  rw [Finset.inter_comm]
  exact Finset.sum_congr rfl (fun g _ => contrib_comm _ _)

theorem locSim_nonneg (L₁ L₂ : List (γ × ℚ)) : 0 ≤ locSim L₁ L₂ :=
  Finset.sum_nonneg (fun _ _ => contrib_nonneg _ _)

theorem locSim_self (L : List (γ × ℚ)) : locSim L L = 2 * L.length := by
  unfold locSim
  simp only [contrib_self, Finset.inter_self]
  rw [← Finset.mul_sum, sum_length_locs L (le_refl _)]

theorem locSim_le_two_mul (L₁ L₂ : List (γ × ℚ)) : locSim L₁ L₂ ≤ 2 * L₁.length := by
  rw [locSim_eq_sum (Finset.inter_subset_left : gramSet L₁ ∩ gramSet L₂ ⊆ gramSet L₁),
    ← sum_length_locs L₁ (le_refl _), Finset.mul_sum]
  exact Finset.sum_le_sum (fun g _ => contrib_le_two_mul _ _)

theorem locSim_le_two_mul' (L₁ L₂ : List (γ × ℚ)) : locSim L₁ L₂ ≤ 2 * L₂.length := by
  rw [locSim_comm]; exact locSim_le_two_mul L₂ L₁

theorem locSim_le_add (L₁ L₂ : List (γ × ℚ)) : locSim L₁ L₂ ≤ L₁.length + L₂.length := by
  have := locSim_le_two_mul L₁ L₂
  have := locSim_le_two_mul' L₁ L₂
  linarith

@[simp] theorem locSim_nil_left (L : List (γ × ℚ)) : locSim [] L = 0 := by
  simp [locSim, gramSet]

@[simp] theorem locSim_nil_right (L : List (γ × ℚ)) : locSim L [] = 0 := by
  simp [locSim, gramSet]

/-- Triangle inequality for summed transport costs. -/
theorem locDist_triangle (L₁ L₂ L₃ : List (γ × ℚ)) :
    (L₁.length : ℚ) + L₃.length - locSim L₁ L₃ ≤
      ((L₁.length : ℚ) + L₂.length - locSim L₁ L₂) + (L₂.length + L₃.length - locSim L₂ L₃) := by
  have h1 : gramSet L₁ ⊆ gramSet L₁ ∪ gramSet L₂ ∪ gramSet L₃ := by
    intro g; simp only [Finset.mem_union]; tauto
  have h2 : gramSet L₂ ⊆ gramSet L₁ ∪ gramSet L₂ ∪ gramSet L₃ := by
    intro g; simp only [Finset.mem_union]; tauto
  have h3 : gramSet L₃ ⊆ gramSet L₁ ∪ gramSet L₂ ∪ gramSet L₃ := by
    intro g; simp only [Finset.mem_union]; tauto
  rw [sub_locSim_eq_sum_emd _ _ h1 h3, sub_locSim_eq_sum_emd _ _ h1 h2,
    sub_locSim_eq_sum_emd _ _ h2 h3, ← Finset.sum_add_distrib]
  exact Finset.sum_le_sum (fun g _ => emd_triangle _ _ _)

theorem perm_of_locs_perm {L₁ L₂ : List (γ × ℚ)}
    (h : ∀ g, (Dict.locs L₁ g).Perm (Dict.locs L₂ g)) : L₁.Perm L₂ := by
  rw [List.perm_iff_count]
  rintro ⟨g, v⟩
  have key : ∀ L : List (γ × ℚ), (Dict.locs L g).count v = L.count (g, v) := by
    intro L
    induction L with
    | nil => rfl
    | cons p L ih =>
      obtain ⟨g', v'⟩ := p
      rw [List.count_cons, ← ih]
      by_cases hg : g' = g
      · subst hg
        have : Dict.locs ((g', v') :: L) g' = v' :: Dict.locs L g' := by simp [Dict.locs]
        rw [this, List.count_cons]
        simp
      · have : Dict.locs ((g', v') :: L) g = Dict.locs L g := by simp [Dict.locs, hg]
        rw [this]
        simp [hg]
  rw [← key, ← key]
  exact (h g).count_eq v

/-- Full similarity characterises equality up to order. -/
theorem locSim_full_iff (L₁ L₂ : List (γ × ℚ)) :
    locSim L₁ L₂ = L₁.length + L₂.length ↔ L₁.Perm L₂ := by
  constructor
  · intro h
    have h1 : gramSet L₁ ⊆ gramSet L₁ ∪ gramSet L₂ := Finset.subset_union_left
    have h2 : gramSet L₂ ⊆ gramSet L₁ ∪ gramSet L₂ := Finset.subset_union_right
    have e := sub_locSim_eq_sum_emd L₁ L₂ h1 h2
    rw [h, sub_self] at e
    have e' := (Finset.sum_eq_zero_iff_of_nonneg (fun g _ => emd_nonneg _ _)).1 e.symm
    apply perm_of_locs_perm
    intro g
    by_cases hg : g ∈ gramSet L₁ ∪ gramSet L₂
    · exact (emd_eq_zero_iff _ _).1 (e' g hg)
    · rw [Finset.mem_union, not_or] at hg
      rw [locs_nil_of_notMem hg.1, locs_nil_of_notMem hg.2]
  · intro h
    have hg : ∀ g, (Dict.locs L₁ g).Perm (Dict.locs L₂ g) := fun g => (h.filter _).map _
    have hs : gramSet L₁ = gramSet L₂ := by
      ext g; rw [mem_gramSet, mem_gramSet]; exact (h.map _).mem_iff
    have : locSim L₁ L₂ = locSim L₂ L₂ := by
      unfold locSim
      rw [hs]
      exact Finset.sum_congr rfl (fun g _ => contrib_perm (hg g) (List.Perm.refl _))
    rw [this, locSim_self, h.length_eq]; ring

/-- Every position of every located n-gram lies in the unit interval. -/
def UnitLocated (L : List (γ × ℚ)) : Prop := ∀ p ∈ L, 0 ≤ p.2 ∧ p.2 ≤ 1

theorem spread1_of_unit {L₁ L₂ : List (γ × ℚ)} (h₁ : UnitLocated L₁) (h₂ : UnitLocated L₂)
    (g : γ) : Spread1 (Dict.locs L₁ g) (Dict.locs L₂ g) := by
  intro x hx y hy
  have := h₁ _ (Dict.mem_locs.1 hx)
  have := h₂ _ (Dict.mem_locs.1 hy)
  simp only at *
  rw [abs_le]; constructor <;> linarith

theorem one_le_contrib {p q : List ℚ} (h : Spread1 p q) (hp : p ≠ []) (hq : q ≠ []) :
    1 ≤ contrib p q := by
  have := min_le_contrib h
  have hp' : (1 : ℚ) ≤ p.length := by
    exact_mod_cast List.length_pos_iff.2 hp
  have hq' : (1 : ℚ) ≤ q.length := by
    exact_mod_cast List.length_pos_iff.2 hq
  exact le_trans (le_min hp' hq') this

theorem locSim_eq_zero_iff {L₁ L₂ : List (γ × ℚ)} (h₁ : UnitLocated L₁) (h₂ : UnitLocated L₂) :
    locSim L₁ L₂ = 0 ↔ Disjoint (gramSet L₁) (gramSet L₂) := by
  constructor
  · intro h
    rw [Finset.disjoint_left]
    intro g hg1 hg2
    unfold locSim at h
    have h0 := (Finset.sum_eq_zero_iff_of_nonneg (fun g _ => contrib_nonneg _ _)).1 h g
      (Finset.mem_inter.2 ⟨hg1, hg2⟩)
    have h1 := one_le_contrib (spread1_of_unit h₁ h₂ g)
      (by rw [Ne, Dict.locs_eq_nil, not_not]; exact mem_gramSet.1 hg1)
      (by rw [Ne, Dict.locs_eq_nil, not_not]; exact mem_gramSet.1 hg2)
    linarith
  · intro h
    unfold locSim
    rw [Finset.disjoint_iff_inter_eq_empty.1 h]; simp

end Verif
