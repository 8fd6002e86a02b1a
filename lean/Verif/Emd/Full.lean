import Verif.Emd.Facts

/-!
# Further facts about the optimal cost

* reflection, ascending lists, effect of adding one point;
* when all distances are at most one no point of the smaller bag is left unmatched;
* adding a point at the far end of a bag that already dominates the other bag only costs its
  penalty (`emd_add_far`), which makes subproblems separated by a cut independent (`emd_split`);
* a common point can be removed (`emd_cons_common`).
-/

namespace Verif

open EmdSpec

theorem align_map {α β α' β' : Type} (c : α → β → ℚ) (c' : α' → β' → ℚ) (f : α → α') (g : β → β')
    (h : ∀ a b, c' (f a) (g b) = c a b) (xs : List α) (ys : List β) :
    align c' (xs.map f) (ys.map g) = align c xs ys := by
  induction xs, ys using align_induction with
  | nil_left ys => simp
  | nil_right x xs => simp
  | cons x xs y ys h1 h2 h3 =>
    simp only [List.map_cons] at h2 h3 ⊢
    rw [align_cons_cons, align_cons_cons, h1, h2, h3, h]

theorem emd_of_desc {xs ys : List ℚ} (hx : xs.Pairwise (· ≥ ·)) (hy : ys.Pairwise (· ≥ ·)) :
    emd xs ys = align absd xs ys := emd_unique (isEmd_align_desc hx hy)

theorem absd_neg (a b : ℚ) : absd (-a) (-b) = absd a b := by
  unfold absd
  rw [show -a - -b = -(a - b) by ring, abs_neg]

theorem pairwise_neg {xs : List ℚ} (hx : xs.Pairwise (· ≤ ·)) :
    (xs.map (fun a => -a)).Pairwise (· ≥ ·) := by
  rw [List.pairwise_map]
  exact hx.imp (fun h => neg_le_neg h)

theorem pairwise_neg' {xs : List ℚ} (hx : xs.Pairwise (· ≥ ·)) :
    (xs.map (fun a => -a)).Pairwise (· ≤ ·) := by
  rw [List.pairwise_map]
  exact hx.imp (fun h => neg_le_neg h)

theorem planCosts_neg (X Y : Multiset ℚ) :
    planCosts (X.map (fun a => -a)) (Y.map (fun a => -a)) = planCosts X Y := by
  have key : ∀ X Y : Multiset ℚ,
      planCosts X Y ⊆ planCosts (X.map (fun a => -a)) (Y.map (fun a => -a)) := by
    rintro X Y c ⟨M, hM, rfl⟩
    refine ⟨M.map (fun p => (-p.1, -p.2)), ⟨?_, ?_⟩, ?_⟩
    · have := Multiset.map_le_map (f := fun a : ℚ => -a) hM.1
      simpa [Multiset.map_map, Function.comp_def] using this
    · have := Multiset.map_le_map (f := fun a : ℚ => -a) hM.2
      simpa [Multiset.map_map, Function.comp_def] using this
    · unfold planCost
      simp only [Multiset.map_map, Multiset.card_map, Function.comp_def]
      congr 3
      apply Multiset.map_congr rfl
      intro p _
      exact (absd_neg p.1 p.2).symm
  apply Set.Subset.antisymm _ (key X Y)
  have := key (X.map (fun a => -a)) (Y.map (fun a => -a))
  simpa [Multiset.map_map, Function.comp_def] using this

theorem emd_neg (xs ys : List ℚ) : emd (xs.map (fun a => -a)) (ys.map (fun a => -a)) = emd xs ys := by
  apply emd_unique
  have := isEmd_emd xs ys
  unfold IsEmd at *
  rw [← Multiset.map_coe, ← Multiset.map_coe, planCosts_neg]
  exact this

theorem emd_of_asc {xs ys : List ℚ} (hx : xs.Pairwise (· ≤ ·)) (hy : ys.Pairwise (· ≤ ·)) :
    emd xs ys = align absd xs ys := by
  rw [← emd_neg, emd_of_desc (pairwise_neg hx) (pairwise_neg hy)]
  exact align_map absd absd _ _ absd_neg xs ys

/-! ### Adding one point -/

theorem emd_nil_left (ys : List ℚ) : emd [] ys = ys.length := by
  have h0 : pySorted ([] : List ℚ) = [] := rfl
  rw [emd_eq_align, h0]
  simp [length_pySorted]

theorem emd_nil_right (xs : List ℚ) : emd xs [] = xs.length := by
  rw [emd_comm, emd_nil_left]

theorem emd_self (xs : List ℚ) : emd xs xs = 0 := (emd_eq_zero_iff xs xs).2 (List.Perm.refl _)

theorem emd_le_match (x y : ℚ) (xs ys : List ℚ) :
    emd (x :: xs) (y :: ys) ≤ |x - y| + emd xs ys := by
  obtain ⟨⟨M, hM, e⟩, _⟩ := isEmd_emd xs ys
  apply (isEmd_emd (x :: xs) (y :: ys)).2
  refine ⟨(x, y) ::ₘ M, ⟨?_, ?_⟩, ?_⟩
  · rw [← Multiset.cons_coe]
    simp only [Multiset.map_cons]
    exact (Multiset.cons_le_cons_iff _).2 hM.1
  · rw [← Multiset.cons_coe]
    simp only [Multiset.map_cons]
    exact (Multiset.cons_le_cons_iff _).2 hM.2
  · rw [← Multiset.cons_coe, ← Multiset.cons_coe, planCost_cons, e]

theorem emd_le_left (x : ℚ) (xs ys : List ℚ) : emd (x :: xs) ys ≤ 1 + emd xs ys := by
  obtain ⟨⟨M, hM, e⟩, _⟩ := isEmd_emd xs ys
  apply (isEmd_emd (x :: xs) ys).2
  refine ⟨M, ⟨?_, hM.2⟩, ?_⟩
  · rw [← Multiset.cons_coe]; exact hM.1.trans (Multiset.le_cons_self _ _)
  · rw [← Multiset.cons_coe, planCost_skip_left, e]

theorem emd_le_right (y : ℚ) (xs ys : List ℚ) : emd xs (y :: ys) ≤ 1 + emd xs ys := by
  rw [emd_comm, emd_comm xs ys]; exact emd_le_left y ys xs

theorem le_emd_left (x : ℚ) (xs ys : List ℚ) : emd xs ys ≤ 1 + emd (x :: xs) ys := by
  have h1 := emd_triangle xs (x :: xs) ys
  have h2 := emd_le_right x xs xs
  rw [emd_self] at h2
  linarith

theorem le_emd_right (y : ℚ) (xs ys : List ℚ) : emd xs ys ≤ 1 + emd xs (y :: ys) := by
  rw [emd_comm xs ys, emd_comm xs (y :: ys)]; exact le_emd_left y ys xs

/-- Adding points to the second bag lowers the cost by at most their number. -/
theorem le_emd_replicate_right (c : ℚ) (b : ℕ) (xs ys : List ℚ) :
    emd xs ys ≤ b + emd xs (List.replicate b c ++ ys) := by
  induction b with
  | zero => simp
  | succ b ih =>
    have := le_emd_right c xs (List.replicate b c ++ ys)
    rw [List.replicate_succ, List.cons_append]
    push_cast
    linarith

theorem emd_asc_cons {x y : ℚ} {xs ys : List ℚ} (hx : (x :: xs).Pairwise (· ≤ ·))
    (hy : (y :: ys).Pairwise (· ≤ ·)) :
    emd (x :: xs) (y :: ys) =
      min (min (|x - y| + emd xs ys) (1 + emd xs (y :: ys))) (1 + emd (x :: xs) ys) := by
  have hx' := (List.pairwise_cons.1 hx).2
  have hy' := (List.pairwise_cons.1 hy).2
  rw [emd_of_asc hx hy, emd_of_asc hx' hy', emd_of_asc hx' hy, emd_of_asc hx hy', align_cons_cons]
  rfl

theorem emd_desc_cons {x y : ℚ} {xs ys : List ℚ} (hx : (x :: xs).Pairwise (· ≥ ·))
    (hy : (y :: ys).Pairwise (· ≥ ·)) :
    emd (x :: xs) (y :: ys) =
      min (min (|x - y| + emd xs ys) (1 + emd xs (y :: ys))) (1 + emd (x :: xs) ys) := by
  have hx' := (List.pairwise_cons.1 hx).2
  have hy' := (List.pairwise_cons.1 hy).2
  rw [emd_of_desc hx hy, emd_of_desc hx' hy', emd_of_desc hx' hy, emd_of_desc hx hy',
    align_cons_cons]
  rfl

/-! ### Small distances: every point of the smaller bag is matched -/

/-- With a free point within distance one, adding a point to the smaller bag is free. -/
theorem emd_add_le {y : ℚ} {xs ys : List ℚ} (h : ys.length < xs.length)
    (hs : ∀ x ∈ xs, |x - y| ≤ 1) : emd xs (y :: ys) ≤ emd xs ys := by
  obtain ⟨⟨M, hM, e⟩, _⟩ := isEmd_emd xs ys
  have hc := plan_card_le_right hM
  simp only [Multiset.coe_card] at hc
  have hne : (xs : Multiset ℚ) - M.map Prod.fst ≠ 0 := by
    intro h0
    have := congrArg Multiset.card h0
    rw [Multiset.card_sub hM.1, Multiset.card_map, Multiset.coe_card, Multiset.card_zero] at this
    omega
  obtain ⟨x, hx⟩ := Multiset.exists_mem_of_ne_zero hne
  have hle : x ::ₘ M.map Prod.fst ≤ (xs : Multiset ℚ) := by
    have h1 : {x} ≤ (xs : Multiset ℚ) - M.map Prod.fst := Multiset.singleton_le.2 hx
    have h2 := add_le_add h1 (le_refl (M.map Prod.fst))
    rw [Multiset.sub_add_cancel hM.1, Multiset.singleton_add] at h2
    exact h2
  have hxm : x ∈ xs := by
    have := Multiset.mem_of_le hle (Multiset.mem_cons_self x _)
    simpa using this
  have : emd xs (y :: ys) ≤ planCost (xs : Multiset ℚ) ((y :: ys : List ℚ) : Multiset ℚ)
      ((x, y) ::ₘ M) := by
    apply (isEmd_emd xs (y :: ys)).2
    refine ⟨_, ⟨?_, ?_⟩, rfl⟩
    · simpa using hle
    · rw [← Multiset.cons_coe]
      simp only [Multiset.map_cons]
      exact (Multiset.cons_le_cons_iff _).2 hM.2
  have hd := hs x hxm
  rw [e]
  refine this.trans ?_
  rw [← Multiset.cons_coe]
  simp only [planCost, Multiset.map_cons, Multiset.sum_cons, Multiset.card_cons]
  push_cast
  linarith

/-- Recursion when the first bag is strictly larger. -/
theorem emd_full_lt {x y : ℚ} {xs ys : List ℚ} (hx : (x :: xs).Pairwise (· ≤ ·))
    (hy : (y :: ys).Pairwise (· ≤ ·)) (hs : Spread1 (x :: xs) (y :: ys))
    (hl : ys.length < xs.length) :
    emd (x :: xs) (y :: ys) = min (|x - y| + emd xs ys) (1 + emd xs (y :: ys)) := by
  have h1 := emd_asc_cons hx hy
  have h2 := emd_add_le (y := y) (xs := x :: xs) (ys := ys) (by simp; omega)
    (fun a ha => hs a ha y List.mem_cons_self)
  rcases min_choice (min (|x - y| + emd xs ys) (1 + emd xs (y :: ys))) (1 + emd (x :: xs) ys) with e | e
  · rw [h1, e]
  · rw [e] at h1; linarith

/-- Recursion when the bags have the same size. -/
theorem emd_full_eq {x y : ℚ} {xs ys : List ℚ} (hx : (x :: xs).Pairwise (· ≤ ·))
    (hy : (y :: ys).Pairwise (· ≤ ·)) (hs : Spread1 (x :: xs) (y :: ys))
    (hl : ys.length = xs.length) :
    emd (x :: xs) (y :: ys) = |x - y| + emd xs ys := by
  have h1 := emd_asc_cons hx hy
  have h2 := emd_add_le (y := y) (xs := x :: xs) (ys := ys) (by simp; omega)
    (fun a ha => hs a ha y List.mem_cons_self)
  have h3 := emd_add_le (y := x) (xs := y :: ys) (ys := xs) (by simp; omega)
    (fun a ha => by rw [abs_sub_comm]; exact hs x List.mem_cons_self a ha)
  rw [emd_comm, emd_comm (y :: ys)] at h3
  rcases min_choice (min (|x - y| + emd xs ys) (1 + emd xs (y :: ys))) (1 + emd (x :: xs) ys) with e | e
  · rw [e] at h1
    rcases min_choice (|x - y| + emd xs ys) (1 + emd xs (y :: ys)) with e' | e'
    · rw [h1, e']
    · rw [e'] at h1; linarith
  · rw [e] at h1; linarith

theorem EmdSpec.Spread1.tail {x y : ℚ} {xs ys : List ℚ} (h : Spread1 (x :: xs) (y :: ys)) :
    Spread1 xs ys :=
  fun a ha b hb => h a (List.mem_cons_of_mem _ ha) b (List.mem_cons_of_mem _ hb)

theorem EmdSpec.Spread1.tailLeft {x : ℚ} {xs ys : List ℚ} (h : Spread1 (x :: xs) ys) : Spread1 xs ys :=
  fun a ha b hb => h a (List.mem_cons_of_mem _ ha) b hb

theorem EmdSpec.Spread1.mono {xs ys xs' ys' : List ℚ} (h : Spread1 xs ys) (hx : xs' ⊆ xs) (hy : ys' ⊆ ys) :
    Spread1 xs' ys' := fun a ha b hb => h a (hx ha) b (hy hb)

theorem EmdSpec.Spread1.symm {xs ys : List ℚ} (h : Spread1 xs ys) : Spread1 ys xs :=
  fun a ha b hb => by rw [abs_sub_comm]; exact h b hb a ha

theorem EmdSpec.Spread2.tail {x y : ℚ} {xs ys : List ℚ} (h : Spread2 (x :: xs) (y :: ys)) :
    Spread2 xs ys :=
  fun a ha b hb => h a (List.mem_cons_of_mem _ ha) b (List.mem_cons_of_mem _ hb)

theorem EmdSpec.Spread2.tailLeft {x : ℚ} {xs ys : List ℚ} (h : Spread2 (x :: xs) ys) : Spread2 xs ys :=
  fun a ha b hb => h a (List.mem_cons_of_mem _ ha) b hb

theorem EmdSpec.Spread2.mono {xs ys xs' ys' : List ℚ} (h : Spread2 xs ys) (hx : xs' ⊆ xs) (hy : ys' ⊆ ys) :
    Spread2 xs' ys' := fun a ha b hb => h a (hx ha) b (hy hb)

theorem EmdSpec.Spread2.symm {xs ys : List ℚ} (h : Spread2 xs ys) : Spread2 ys xs :=
  fun a ha b hb => by rw [abs_sub_comm]; exact h b hb a ha

/-- Equal sizes: pair the sorted lists. -/
theorem emd_zip1 {xs ys : List ℚ} (hx : xs.Pairwise (· ≤ ·)) (hy : ys.Pairwise (· ≤ ·))
    (hs : Spread1 xs ys) (hl : xs.length = ys.length) :
    emd xs ys = (List.zipWith absd xs ys).sum := by
  induction xs generalizing ys with
  | nil =>
    cases ys with
    | nil => simp [emd_nil_left]
    | cons y ys => simp at hl
  | cons x xs ih =>
    cases ys with
    | nil => simp at hl
    | cons y ys =>
      simp only [List.length_cons, Nat.add_right_cancel_iff] at hl
      rw [emd_full_eq hx hy hs hl.symm, List.zipWith_cons_cons, List.sum_cons,
        ih (List.pairwise_cons.1 hx).2 (List.pairwise_cons.1 hy).2 hs.tail hl]
      rfl

/-! ### Points at the far end -/

/-- Every element of `ys` is at most the element of `xs` at the same place. -/
inductive Dom : List ℚ → List ℚ → Prop
  | nil (xs : List ℚ) : Dom xs []
  | cons {x y : ℚ} {xs ys : List ℚ} : y ≤ x → Dom xs ys → Dom (x :: xs) (y :: ys)

theorem Dom.drop {xs ys : List ℚ} {y : ℚ} (h : Dom xs (y :: ys)) (hy : (y :: ys).Pairwise (· ≥ ·)) :
    Dom xs ys := by
  induction ys generalizing xs y with
  | nil => exact Dom.nil _
  | cons y' ys ih =>
    cases h with
    | cons h1 h2 =>
      rw [List.pairwise_cons] at hy
      exact Dom.cons ((hy.1 y' List.mem_cons_self).trans h1) (ih h2 hy.2)

theorem Dom.second {xs ys : List ℚ} {y y' : ℚ} (h : Dom xs (y :: y' :: ys))
    (hy : (y :: y' :: ys).Pairwise (· ≥ ·)) : Dom xs (y :: ys) := by
  cases h with
  | cons h1 h2 => exact Dom.cons h1 (h2.drop (List.pairwise_cons.1 hy).2)

/-- Exporting the largest `y` to a far point is not better than keeping it, descending lists. -/
theorem export_le {c y : ℚ} {xs ys : List ℚ} (hx : xs.Pairwise (· ≥ ·))
    (hy : (y :: ys).Pairwise (· ≥ ·)) (hd : Dom xs (y :: ys)) (hc : ∀ x ∈ xs, x ≤ c) :
    emd xs (y :: ys) + 1 ≤ (c - y) + emd xs ys := by
  induction xs generalizing y ys with
  | nil => cases hd
  | cons x xs ihx =>
    induction ys with
    | nil =>
      cases hd with
      | cons hyx _ =>
        have h1 := emd_le_match x y xs []
        have h2 := hc x List.mem_cons_self
        rw [abs_of_nonneg (by linarith)] at h1
        rw [emd_nil_right] at h1 ⊢
        simp only [List.length_cons]
        push_cast
        linarith
    | cons y' ys ihy =>
      have hy' := List.pairwise_cons.1 hy
      have hx' := List.pairwise_cons.1 hx
      have hxc := hc x List.mem_cons_self
      have hyx : y ≤ x := by cases hd; assumption
      have hd' : Dom xs (y' :: ys) := by cases hd; assumption
      have hyy := hy'.1 y' List.mem_cons_self
      have hm := emd_le_match x y xs (y' :: ys)
      rw [abs_of_nonneg (by linarith)] at hm
      have h := emd_desc_cons hx hy'.2
      rcases min_choice (min (|x - y'| + emd xs ys) (1 + emd xs (y' :: ys)))
        (1 + emd (x :: xs) ys) with e | e
      · rcases min_choice (|x - y'| + emd xs ys) (1 + emd xs (y' :: ys)) with e' | e'
        · rw [e, e', abs_of_nonneg (by linarith)] at h
          have := ihx hx'.2 hy'.2 hd' (fun a ha => hc a (List.mem_cons_of_mem _ ha))
          linarith
        · rw [e, e'] at h
          linarith
      · rw [e] at h
        have hsub : (y :: ys).Pairwise (· ≥ ·) := by
          refine List.pairwise_cons.2 ⟨fun a ha => hy'.1 a (List.mem_cons_of_mem _ ha), ?_⟩
          exact (List.pairwise_cons.1 hy'.2).2
        have h1 := ihy hsub (hd.second hy)
        have h2 : emd (x :: xs) (y :: y' :: ys) ≤ 1 + emd (x :: xs) (y :: ys) := by
          rw [emd_perm (List.Perm.refl (x :: xs)) (List.Perm.swap y' y ys)]
          exact emd_le_right y' (x :: xs) (y :: ys)
        linarith

/-- Descending lists: a far extra point in the dominating bag is best left unmatched. -/
theorem emd_add_far {c : ℚ} {xs ys : List ℚ} (hx : xs.Pairwise (· ≥ ·))
    (hy : ys.Pairwise (· ≥ ·)) (hd : Dom xs ys) (hc : ∀ x ∈ xs, x ≤ c) :
    emd xs ys + 1 ≤ emd (c :: xs) ys := by
  induction ys with
  | nil => rw [emd_nil_right, emd_nil_right]; simp
  | cons y ys ih =>
    have hy' := List.pairwise_cons.1 hy
    have hcx : (c :: xs).Pairwise (· ≥ ·) := List.pairwise_cons.2 ⟨hc, hx⟩
    have hyc : y ≤ c := by
      cases hd with
      | cons h1 _ => exact h1.trans (hc _ List.mem_cons_self)
    have h := emd_desc_cons hcx hy
    rw [h, le_min_iff, le_min_iff]
    refine ⟨⟨?_, ?_⟩, ?_⟩
    · rw [abs_of_nonneg (by linarith)]
      exact export_le hx hy hd hc
    · linarith
    · have h1 := ih hy'.2 (hd.drop hy)
      have h2 := emd_le_right y xs ys
      linarith

theorem Dom.snoc_far {c : ℚ} {xs ys : List ℚ} (hx : (c :: xs).Pairwise (· ≥ ·))
    (hd : Dom xs ys) : Dom (c :: xs) ys := by
  induction xs generalizing c ys with
  | nil => cases hd; exact Dom.nil _
  | cons x xs ih =>
    cases hd with
    | nil => exact Dom.nil _
    | cons h1 h2 =>
      have hx' := List.pairwise_cons.1 hx
      exact Dom.cons (h1.trans (hx'.1 x List.mem_cons_self)) (ih hx'.2 h2)

theorem emd_add_far_replicate {c : ℚ} (a : ℕ) {xs ys : List ℚ} (hx : xs.Pairwise (· ≥ ·))
    (hy : ys.Pairwise (· ≥ ·)) (hd : Dom xs ys) (hc : ∀ x ∈ xs, x ≤ c) :
    emd xs ys + a ≤ emd (List.replicate a c ++ xs) ys := by
  have key : ∀ a : ℕ, emd xs ys + a ≤ emd (List.replicate a c ++ xs) ys ∧
      (List.replicate a c ++ xs).Pairwise (· ≥ ·) ∧ Dom (List.replicate a c ++ xs) ys ∧
      (∀ x ∈ List.replicate a c ++ xs, x ≤ c) := by
    intro a
    induction a with
    | zero => simpa using ⟨hx, hd, hc⟩
    | succ a ih =>
      obtain ⟨h1, h2, h3, h4⟩ := ih
      have hp : (c :: (List.replicate a c ++ xs)).Pairwise (· ≥ ·) := List.pairwise_cons.2 ⟨h4, h2⟩
      have := emd_add_far h2 hy h3 h4
      rw [List.replicate_succ, List.cons_append]
      refine ⟨by push_cast; linarith, hp, h3.snoc_far hp, ?_⟩
      intro x hx
      rcases List.mem_cons.1 hx with rfl | hx
      · exact le_refl _
      · exact h4 x hx
  exact (key a).1

end Verif
