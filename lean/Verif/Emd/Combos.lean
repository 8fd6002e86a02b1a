import Verif.Emd.Split
import Verif.Emd.Variants

/-!
# Enumeration of alignments, single points, greedy loops, common points
-/

namespace Verif

open EmdSpec

theorem foldl_min_le (l : List ℚ) (a : ℚ) : l.foldl min a ≤ a ∧ ∀ b ∈ l, l.foldl min a ≤ b := by
  induction l generalizing a with
  | nil => simp
  | cons c l ih =>
    obtain ⟨h1, h2⟩ := ih (min a c)
    simp only [List.foldl_cons, List.mem_cons, forall_eq_or_imp]
    exact ⟨h1.trans (min_le_left _ _), h1.trans (min_le_right _ _), h2⟩

theorem foldl_min_mem (l : List ℚ) (a : ℚ) : l.foldl min a = a ∨ l.foldl min a ∈ l := by
  induction l generalizing a with
  | nil => simp
  | cons c l ih =>
    simp only [List.foldl_cons, List.mem_cons]
    rcases ih (min a c) with h | h
    · rw [h]
      rcases min_choice a c with h' | h' <;> simp [h']
    · exact Or.inr (Or.inr h)

theorem pyMin_eq {l : List ℚ} {m : ℚ} (hm : m ∈ l) (h : ∀ b ∈ l, m ≤ b) : pyMin l = .ok m := by
  cases l with
  | nil => simp at hm
  | cons a l =>
    obtain ⟨h1, h2⟩ := foldl_min_le l a
    refine congrArg Except.ok (le_antisymm ?_ ?_)
    · rcases List.mem_cons.1 hm with rfl | hm
      · exact h1
      · exact h2 m hm
    · rcases foldl_min_mem l a with e | e
      · rw [e]; exact h a List.mem_cons_self
      · exact h _ (List.mem_cons_of_mem _ e)

theorem mem_combinations {n : ℕ} {xs c : List ℚ} :
    c ∈ combinations n xs ↔ c.Sublist xs ∧ c.length = n := by
  induction xs generalizing n c with
  | nil =>
    cases n with
    | zero => simp [combinations]
    | succ n =>
      simp only [combinations, List.not_mem_nil, false_iff, not_and, List.sublist_nil]
      rintro rfl; simp
  | cons x xs ih =>
    cases n with
    | zero =>
      simp only [combinations, List.mem_singleton]
      constructor
      · rintro rfl; simp
      · rintro ⟨_, h⟩; exact List.length_eq_zero_iff.1 h
    | succ n =>
      simp only [combinations, List.mem_append, List.mem_map, ih]
      constructor
      · rintro (⟨c', ⟨h1, h2⟩, rfl⟩ | ⟨h1, h2⟩)
        · exact ⟨h1.cons_cons x, by simp [h2]⟩
        · exact ⟨h1.cons x, h2⟩
      · rintro ⟨h1, h2⟩
        cases h1 with
        | cons _ h => exact Or.inr ⟨h, h2⟩
        | cons_cons _ h => exact Or.inl ⟨_, ⟨h, by simpa using h2⟩, rfl⟩

theorem emd_le_combo {c xs : List ℚ} (h : c.Sublist xs) : ∀ {ys : List ℚ}, c.length = ys.length →
    emd xs ys ≤ zipCost c ys + ((xs.length : ℚ) - ys.length) := by
  induction h with
  | slnil =>
    intro ys hl
    have : ys = [] := List.length_eq_zero_iff.1 hl.symm
    subst this
    simp [zipCost, emd_nil_left]
  | cons x h ih =>
    intro ys hl
    have h1 := ih hl
    rename_i l₁ l₂
    have h2 := emd_le_left x l₂ ys
    simp only [List.length_cons]
    push_cast
    linarith
  | cons_cons x h ih =>
    intro ys hl
    cases ys with
    | nil => simp at hl
    | cons y ys =>
      have h1 := ih (ys := ys) (by simpa using hl)
      rename_i l₁ l₂
      have h2 := emd_le_match x y l₂ ys
      unfold zipCost at *
      simp only [List.length_cons, List.zipWith_cons_cons, List.sum_cons]
      push_cast
      linarith

theorem exists_combo {xs ys : List ℚ} (hx : xs.Pairwise (· ≤ ·)) (hy : ys.Pairwise (· ≤ ·))
    (hs : Spread1 xs ys) (hl : ys.length ≤ xs.length) :
    ∃ c : List ℚ, c.Sublist xs ∧ c.length = ys.length ∧
      emd xs ys = zipCost c ys + ((xs.length : ℚ) - ys.length) := by
  induction xs generalizing ys with
  | nil =>
    have : ys = [] := List.length_eq_zero_iff.1 (by simpa using hl)
    subst this
    exact ⟨[], List.Sublist.refl _, rfl, by simp [zipCost, emd_nil_left]⟩
  | cons x xs ih =>
    cases ys with
    | nil => exact ⟨[], List.nil_sublist _, rfl, by simp [zipCost, emd_nil_right]⟩
    | cons y ys =>
      have hx' := (List.pairwise_cons.1 hx).2
      have hy' := (List.pairwise_cons.1 hy).2
      obtain ⟨c, hc, hcl, e⟩ := ih hx' hy' hs.tail (by simpa using hl)
      have hmatch : emd (x :: xs) (y :: ys) = |x - y| + emd xs ys →
          ∃ c : List ℚ, c.Sublist (x :: xs) ∧ c.length = (y :: ys).length ∧
            emd (x :: xs) (y :: ys) = zipCost c (y :: ys) + (((x :: xs).length : ℚ) - (y :: ys).length) := by
        intro h
        refine ⟨x :: c, hc.cons_cons x, by simp [hcl], ?_⟩
        rw [h, e]
        unfold zipCost
        simp only [List.length_cons, List.zipWith_cons_cons, List.sum_cons]
        push_cast
        ring
      rcases Nat.lt_or_ge ys.length xs.length with h | h
      · have h1 := emd_full_lt hx hy hs h
        rcases min_choice (|x - y| + emd xs ys) (1 + emd xs (y :: ys)) with e1 | e1
        · rw [e1] at h1; exact hmatch h1
        · rw [e1] at h1
          obtain ⟨c, hc, hcl, e⟩ := ih hx' hy hs.tailLeft (by simp; omega)
          refine ⟨c, hc.cons x, hcl, ?_⟩
          rw [h1, e]
          simp only [List.length_cons]
          push_cast
          ring
      · exact hmatch (emd_full_eq hx hy hs (by simp at hl; omega))

/-- The enumeration finds the optimum when all distances are at most one. -/
theorem pyMin_comboCosts {xs ys : List ℚ} (hx : xs.Pairwise (· ≤ ·)) (hy : ys.Pairwise (· ≤ ·))
    (hs : Spread1 xs ys) (hl : ys.length ≤ xs.length) :
    pyMin (comboCosts xs ys) = .ok (emd xs ys - ((xs.length : ℚ) - ys.length)) := by
  apply pyMin_eq
  · obtain ⟨c, h1, h2, e⟩ := exists_combo hx hy hs hl
    unfold comboCosts
    refine List.mem_cons_of_mem _ (List.mem_map.2 ⟨c, mem_combinations.2 ⟨h1, h2⟩, ?_⟩)
    rw [e]; ring
  · intro b hb
    rcases List.mem_cons.1 hb with rfl | hb
    · have := emd_le_max hs
      rw [max_eq_left (by exact_mod_cast hl)] at this
      linarith
    · obtain ⟨c, hc, rfl⟩ := List.mem_map.1 hb
      obtain ⟨h1, h2⟩ := mem_combinations.1 hc
      have := emd_le_combo h1 h2
      linarith

theorem EmdSpec.Spread1.sorted {xs ys : List ℚ} (h : Spread1 xs ys) :
    Spread1 (pySorted xs) (pySorted ys) :=
  h.mono (fun _ ha => (pySorted_perm _).mem_iff.1 ha) (fun _ ha => (pySorted_perm _).mem_iff.1 ha)

theorem emd_sorted (xs ys : List ℚ) : emd (pySorted xs) (pySorted ys) = emd xs ys :=
  emd_perm (pySorted_perm _) (pySorted_perm _)

theorem emdSlow_eq {xs ys : List ℚ} (hs : Spread1 xs ys) : emdSlow xs ys = .ok (emd xs ys) := by
  have key : ∀ {xs ys : List ℚ}, Spread1 xs ys → ys.length ≤ xs.length →
      (pyMin (comboCosts (pySorted xs) (pySorted ys))) =
        .ok (emd xs ys - ((xs.length : ℚ) - ys.length)) := by
    intro xs ys hs hl
    rw [pyMin_comboCosts (pySorted_pairwise _) (pySorted_pairwise _) hs.sorted
      (by simpa [length_pySorted] using hl), emd_sorted, length_pySorted, length_pySorted]
  unfold emdSlow
  by_cases h : xs.length < ys.length
  · simp only [if_pos h, key hs.symm h.le, length_pySorted]
    rw [emd_comm xs ys]
    show Except.ok _ = Except.ok _
    congr 1; ring
  · simp only [if_neg h, key hs (not_lt.1 h), length_pySorted]
    show Except.ok _ = Except.ok _
    congr 1; ring

/-- One point against many. -/
theorem singleCost_eq {xs : List ℚ} {y : ℚ} (hne : xs ≠ []) (hs : Spread2 xs [y]) :
    singleCost xs y = .ok (emd xs [y]) := by
  have hm : pyMin (xs.map (fun x => |x - y|)) = .ok (emd xs [y] - (xs.length - 1)) := by
    obtain ⟨x, hx, e⟩ := exists_emd_single hne hs
    apply pyMin_eq
    · exact List.mem_map.2 ⟨x, hx, by rw [e]; ring⟩
    · intro b hb
      obtain ⟨x', hx', rfl⟩ := List.mem_map.1 hb
      have := emd_single_le (y := y) hx'
      linarith
  unfold singleCost
  rw [hm]
  show Except.ok _ = Except.ok _
  congr 1; ring

/-! ### Greedy loops -/

/-- What the greedy loops preserve. -/
structure GreedyOk (R : ℚ → ℚ → Prop) (d : ℚ) (xs ys : List ℚ) (r : ℚ × List ℚ × List ℚ) : Prop where
  cost : r.1 + emd r.2.1 r.2.2 = d + emd xs ys
  sx : r.2.1.Pairwise R
  sy : r.2.2.Pairwise R
  len : r.2.2.length ≤ r.2.1.length
  subx : r.2.1 ⊆ xs
  suby : r.2.2 ⊆ ys

theorem greedyOk_refl {R : ℚ → ℚ → Prop} {d : ℚ} {xs ys : List ℚ} (hx : xs.Pairwise R)
    (hy : ys.Pairwise R) (hl : ys.length ≤ xs.length) : GreedyOk R d xs ys (d, xs, ys) :=
  ⟨rfl, hx, hy, hl, fun _ h => h, fun _ h => h⟩

theorem GreedyOk.step {R : ℚ → ℚ → Prop} {d e x y : ℚ} {xs ys : List ℚ}
    {r : ℚ × List ℚ × List ℚ} (h : GreedyOk R (d + e) xs ys r)
    (he : emd (x :: xs) (y :: ys) = e + emd xs ys) : GreedyOk R d (x :: xs) (y :: ys) r :=
  ⟨by rw [h.cost, he]; ring, h.sx, h.sy, h.len, fun _ ha => List.mem_cons_of_mem _ (h.subx ha),
    fun _ ha => List.mem_cons_of_mem _ (h.suby ha)⟩

theorem greedySmall_ok {xs ys : List ℚ} (d : ℚ) (hx : xs.Pairwise (· ≤ ·))
    (hy : ys.Pairwise (· ≤ ·)) (hs : Spread2 xs ys) (hl : ys.length ≤ xs.length) :
    GreedyOk (· ≤ ·) d xs ys (greedySmall d xs ys) := by
  induction xs generalizing d ys with
  | nil =>
    have : ys = [] := List.length_eq_zero_iff.1 (by simpa using hl)
    subst this
    simpa [greedySmall] using greedyOk_refl hx hy hl
  | cons x xs ih =>
    cases ys with
    | nil => simpa [greedySmall] using greedyOk_refl hx hy hl
    | cons y ys =>
      have hx' := (List.pairwise_cons.1 hx).2
      have hy' := (List.pairwise_cons.1 hy).2
      have hl' : ys.length ≤ xs.length := by simpa using hl
      unfold greedySmall
      split_ifs with h
      · exact (ih _ hx' hy' hs.tail hl').step (emd_greedy_small hx hy hs hl' h)
      · cases xs with
        | nil => exact greedyOk_refl hx hy hl
        | cons x2 xs =>
          simp only
          split_ifs with h2
          · have := ih (d + |y - x|) hx' hy' hs.tail hl'
            refine this.step ?_
            rw [abs_sub_comm]
            exact emd_greedy_small2 hx hy hs hl' (not_le.1 h) h2.1 h2.2
          · exact greedyOk_refl hx hy hl

theorem greedyLarge_ok {xs ys : List ℚ} (d : ℚ) (hx : xs.Pairwise (· ≥ ·))
    (hy : ys.Pairwise (· ≥ ·)) (hs : Spread2 xs ys) (hl : ys.length ≤ xs.length) :
    GreedyOk (· ≥ ·) d xs ys (greedyLarge d xs ys) := by
  induction xs generalizing d ys with
  | nil =>
    have : ys = [] := List.length_eq_zero_iff.1 (by simpa using hl)
    subst this
    simpa [greedyLarge] using greedyOk_refl hx hy hl
  | cons x xs ih =>
    cases ys with
    | nil => simpa [greedyLarge] using greedyOk_refl hx hy hl
    | cons y ys =>
      have hx' := (List.pairwise_cons.1 hx).2
      have hy' := (List.pairwise_cons.1 hy).2
      have hl' : ys.length ≤ xs.length := by simpa using hl
      unfold greedyLarge
      split_ifs with h
      · refine (ih _ hx' hy' hs.tail hl').step ?_
        rw [abs_sub_comm]
        exact emd_greedy_large hx hy hs hl' h
      · cases xs with
        | nil => exact greedyOk_refl hx hy hl
        | cons x2 xs =>
          simp only
          split_ifs with h2
          · have := ih (d + |y - x|) hx' hy' hs.tail hl'
            refine this.step ?_
            rw [abs_sub_comm]
            exact emd_greedy_large2 hx hy hs hl' (not_le.1 h) h2.1 h2.2
          · exact greedyOk_refl hx hy hl

theorem oldSmall_ok {xs ys : List ℚ} (d : ℚ) (hx : xs.Pairwise (· ≤ ·))
    (hy : ys.Pairwise (· ≤ ·)) (hs : Spread2 xs ys) (hl : ys.length ≤ xs.length) :
    ∃ r, oldSmall d xs ys = .ok r ∧ GreedyOk (· ≤ ·) d xs ys r := by
  induction xs generalizing d ys with
  | nil =>
    have : ys = [] := List.length_eq_zero_iff.1 (by simpa using hl)
    subst this
    exact ⟨_, by simp [oldSmall], greedyOk_refl hx hy hl⟩
  | cons x xs ih =>
    cases ys with
    | nil => exact ⟨_, by simp [oldSmall], greedyOk_refl hx hy hl⟩
    | cons y ys =>
      have hx' := (List.pairwise_cons.1 hx).2
      have hy' := (List.pairwise_cons.1 hy).2
      have hl' : ys.length ≤ xs.length := by simpa using hl
      unfold oldSmall
      split_ifs with h
      · obtain ⟨r, e, hr⟩ := ih (d + (x - y)) hx' hy' hs.tail hl'
        refine ⟨r, e, hr.step ?_⟩
        have := emd_greedy_small hx hy hs hl' h
        rw [abs_of_nonneg (by linarith)] at this
        exact this
      · cases xs with
        | nil => exact ⟨_, rfl, greedyOk_refl hx hy hl⟩
        | cons x2 xs =>
          simp only
          split_ifs with h2
          · obtain ⟨r, e, hr⟩ := ih (d + (y - x)) hx' hy' hs.tail hl'
            refine ⟨r, e, hr.step ?_⟩
            have := emd_greedy_small2 hx hy hs hl' (not_le.1 h) h2.1 h2.2
            rw [abs_of_nonpos (by linarith)] at this
            rw [this]; ring
          · exact ⟨_, rfl, greedyOk_refl hx hy hl⟩

/-- The second branch of the larger end of `emd_1d_old` is never taken. -/
theorem oldLarge_dead {x y : ℚ} (h : ¬ y ≥ x) : ¬ (x - y ≤ y - x) := by
  have : y < x := not_le.1 h
  intro h2
  linarith

theorem oldLarge_ok {xs ys : List ℚ} (d : ℚ) (hx : xs.Pairwise (· ≥ ·))
    (hy : ys.Pairwise (· ≥ ·)) (hs : Spread2 xs ys) (hl : ys.length ≤ xs.length) :
    ∃ r, oldLarge d xs ys = .ok r ∧ GreedyOk (· ≥ ·) d xs ys r := by
  induction xs generalizing d ys with
  | nil =>
    have : ys = [] := List.length_eq_zero_iff.1 (by simpa using hl)
    subst this
    exact ⟨_, by simp [oldLarge], greedyOk_refl hx hy hl⟩
  | cons x xs ih =>
    cases ys with
    | nil => exact ⟨_, by simp [oldLarge], greedyOk_refl hx hy hl⟩
    | cons y ys =>
      have hx' := (List.pairwise_cons.1 hx).2
      have hy' := (List.pairwise_cons.1 hy).2
      have hl' : ys.length ≤ xs.length := by simpa using hl
      unfold oldLarge
      split_ifs with h
      · obtain ⟨r, e, hr⟩ := ih (d + (y - x)) hx' hy' hs.tail hl'
        refine ⟨r, e, hr.step ?_⟩
        have := emd_greedy_large hx hy hs hl' h
        rw [abs_of_nonpos (by linarith)] at this
        rw [this]; ring
      · cases xs with
        | nil => exact ⟨_, rfl, greedyOk_refl hx hy hl⟩
        | cons x2 xs =>
          simp only
          rw [if_neg (fun h2 => oldLarge_dead h h2.2)]
          exact ⟨_, rfl, greedyOk_refl hx hy hl⟩

/-! ### Common points -/

theorem removeCommon_perm (xs ys : List ℚ) :
    ∃ C : List ℚ, xs.Perm (C ++ (removeCommon xs ys).1) ∧ ys.Perm (C ++ (removeCommon xs ys).2) ∧
      (removeCommon xs ys).1.Sublist xs ∧ (removeCommon xs ys).2.Sublist ys := by
  induction xs, ys using removeCommon.induct with
  | case1 ys =>
    rw [removeCommon]
    exact ⟨[], List.Perm.refl _, List.Perm.refl _, List.Sublist.refl _, List.Sublist.refl _⟩
  | case2 xs h =>
    cases xs with
    | nil => exact absurd rfl h
    | cons x xs =>
      rw [removeCommon]
      · exact ⟨[], List.Perm.refl _, List.Perm.refl _, List.Sublist.refl _, List.Sublist.refl _⟩
      · simp
  | case3 x xs y ys h ih =>
    rw [removeCommon, if_pos h]
    obtain ⟨C, h1, h2, h3, h4⟩ := ih
    exact ⟨C, (h1.cons x).trans List.perm_middle.symm, h2, h3.cons_cons x, h4⟩
  | case4 x xs y ys h h' ih =>
    rw [removeCommon, if_neg h, if_pos h']
    obtain ⟨C, h1, h2, h3, h4⟩ := ih
    exact ⟨C, h1, (h2.cons y).trans List.perm_middle.symm, h3, h4.cons_cons y⟩
  | case5 x xs y ys h h' ih =>
    rw [removeCommon, if_neg h, if_neg h']
    obtain ⟨C, h1, h2, h3, h4⟩ := ih
    have e : x = y := le_antisymm (not_lt.1 h') (not_lt.1 h)
    subst e
    exact ⟨x :: C, h1.cons x, h2.cons x, h3.cons x, h4.cons x⟩

theorem emd_append_common (C xs ys : List ℚ) : emd (C ++ xs) (C ++ ys) = emd xs ys := by
  induction C with
  | nil => rfl
  | cons a C ih => rw [List.cons_append, List.cons_append, emd_cons_common, ih]

theorem emd_removeCommon (xs ys : List ℚ) :
    emd (removeCommon xs ys).1 (removeCommon xs ys).2 = emd xs ys := by
  obtain ⟨C, h1, h2, _⟩ := removeCommon_perm xs ys
  rw [emd_perm h1 h2, emd_append_common]

/-! ### DP fallback -/

theorem dpRowCopy_ok {x y : List ℚ} {i : Nat} {bufs : List ℚ × List ℚ} (hi : i < x.length)
    (hp : RowOk x y i y.length bufs.1) (hl : bufs.2.length = y.length + 1) :
    ∃ b', dpRowCopy x y bufs (1 + i) = .ok b' ∧ RowOk x y (i + 1) y.length b'.1 ∧
      b'.2.length = y.length + 1 := by
  have hc : RowOk x y (i + 1) 0 (bufs.2.set 0 ((i + 1 : ℕ) : ℚ)) := by
    refine ⟨by simp [hl], ?_⟩
    intro t ht
    obtain rfl : t = 0 := by omega
    rw [dpVal_zero_right x y (by omega)]
    simp [hl]
  obtain ⟨c', e', r'⟩ := dpInner_ok hi hp hc y.length le_rfl
  refine ⟨(c', c'), ?_, r', r'.1⟩
  rw [Nat.add_comm 1 i]
  simp only [dpRowCopy, pySet_ok (show 0 < bufs.2.length by omega), bind, Except.bind, e', pure,
    Except.pure]

theorem dpOuterCopy_ok (x y : List ℚ) (bufs : List ℚ × List ℚ)
    (hp : RowOk x y 0 y.length bufs.1) (hl : bufs.2.length = y.length + 1) :
    ∀ k, k ≤ x.length →
      ∃ b', (List.range' 1 k).foldlM (dpRowCopy x y) bufs = .ok b' ∧
        RowOk x y k y.length b'.1 ∧ b'.2.length = y.length + 1 := by
  intro k
  induction k with
  | zero => intro _; exact ⟨bufs, rfl, hp, hl⟩
  | succ k ih =>
    intro hk
    obtain ⟨b1, e1, r1, l1⟩ := ih (by omega)
    obtain ⟨b2, e2, r2, l2⟩ := dpRowCopy_ok (by omega) r1 l1
    refine ⟨b2, ?_, r2, l2⟩
    rw [List.range'_concat, List.foldlM_append, e1]
    simp [bind, Except.bind, e2, pure, Except.pure]

theorem dpRunCopy_ok (x y : List ℚ) :
    (do
      let bufs ← (List.range' 1 x.length).foldlM (dpRowCopy x y)
        ((List.range (y.length + 1)).map (fun j : ℕ => (j : ℚ)), List.replicate (y.length + 1) 0)
      pyGet bufs.1 y.length : Except PyErr ℚ) = .ok (align absd x.reverse y.reverse) := by
  have hp : RowOk x y 0 y.length ((List.range (y.length + 1)).map (fun j : ℕ => (j : ℚ))) := by
    refine ⟨by simp, ?_⟩
    intro t ht
    rw [dpVal_zero_left x y ht]
    simp [Nat.lt_succ_of_le ht]
  obtain ⟨b, e, r, _⟩ := dpOuterCopy_ok x y
    ((List.range (y.length + 1)).map (fun j : ℕ => (j : ℚ)),
     List.replicate (y.length + 1) 0) hp (by simp) x.length le_rfl
  rw [e]
  simp only [bind, Except.bind]
  rw [pyGet_ok' (r.2 y.length le_rfl)]
  simp [dpVal]

theorem dpFallback_ok (x y : List ℚ) :
    dpFallback x y = .ok (align absd x.reverse y.reverse) := by
  unfold dpFallback
  by_cases h : x.length > y.length
  · rw [if_pos h, align_absd_comm]
    exact dpRunCopy_ok y x
  · rw [if_neg h]
    exact dpRunCopy_ok x y

theorem dpFallback_emd {x y : List ℚ} (hx : x.Pairwise (· ≤ ·)) (hy : y.Pairwise (· ≤ ·)) :
    dpFallback x y = .ok (emd x y) := by
  rw [dpFallback_ok, ← emd_of_desc (by rw [List.pairwise_reverse]; exact hx)
    (by rw [List.pairwise_reverse]; exact hy), emd_perm (List.reverse_perm _) (List.reverse_perm _)]

end Verif
