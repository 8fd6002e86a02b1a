import Verif.Fp.VarModel
import Verif.Fp.Error
import Verif.Emd.VariantsProof

/-!
# Accumulated errors, and the loop over components with an arbitrary relation

`Rel R k c v e`: `v` is `e` up to `k` roundings, relative to `e + c`.
-/

namespace Verif
namespace Fp

open EmdSpec

/-- `v + c` is `e + c` up to `k` roundings. -/
def Rel (R : Rounding) (k : ℕ) (c v e : ℚ) : Prop :=
  (1 - R.u) ^ k * (e + c) ≤ v + c ∧ v + c ≤ (1 + R.u) ^ k * (e + c)

variable {R : Rounding}

theorem Rel.refl {v : ℚ} : Rel R 0 0 v v := by simp [Rel]

theorem Rel.mono {k k' : ℕ} {c c' v e : ℚ} (h : Rel R k c v e) (hk : k ≤ k') (hc : c ≤ c')
    (h0 : 0 ≤ e + c) : Rel R k' c' v e := by
  have hu := R.u_pos
  have hu1 := R.u_lt
  have a1 : (1 - R.u) ^ k' ≤ (1 - R.u) ^ k := pow_le_pow_of_le_one (by linarith) (by linarith) hk
  have a2 : (1 + R.u) ^ k ≤ (1 + R.u) ^ k' := pow_le_pow_right₀ (by linarith) hk
  have b1 : (1 - R.u) ^ k' ≤ 1 := pow_le_one₀ (by linarith) (by linarith)
  have b2 : 1 ≤ (1 + R.u) ^ k' := one_le_pow₀ (by linarith)
  obtain ⟨h1, h2⟩ := h
  constructor
  · have t1 := mul_le_mul_of_nonneg_right a1 h0
    have t2 := mul_le_mul_of_nonneg_right b1 (sub_nonneg.2 hc)
    have : e + c' = (e + c) + (c' - c) := by ring
    rw [this, mul_add]
    linarith
  · have t1 := mul_le_mul_of_nonneg_right a2 h0
    have t2 := mul_le_mul_of_nonneg_right b2 (sub_nonneg.2 hc)
    have : e + c' = (e + c) + (c' - c) := by ring
    rw [this, mul_add]
    linarith

theorem Rel.add {k : ℕ} {c c' v w e f : ℚ} (h : Rel R k c v e) (h' : Rel R k c' w f) :
    Rel R k (c + c') (v + w) (e + f) := by
  obtain ⟨h1, h2⟩ := h
  obtain ⟨h3, h4⟩ := h'
  constructor
  · have : e + f + (c + c') = (e + c) + (f + c') := by ring
    rw [this, mul_add]; linarith
  · have : e + f + (c + c') = (e + c) + (f + c') := by ring
    rw [this, mul_add]; linarith

/-- One more rounding. -/
theorem Rel.fl {k : ℕ} {c v e : ℚ} (h : Rel R k c v e) (hv : 0 ≤ v) (hc : 0 ≤ c) :
    Rel R (k + 1) c (R.fl v) e := by
  have hu := R.u_pos
  have hu1 := R.u_lt
  obtain ⟨h1, h2⟩ := h
  have l := fl_lower (R := R) hv
  have u := fl_upper (R := R) hv
  constructor
  · have t := mul_le_mul_of_nonneg_left h1 (show 0 ≤ 1 - R.u by linarith)
    rw [pow_succ, mul_comm ((1 - R.u) ^ k), mul_assoc]
    nlinarith
  · have t := mul_le_mul_of_nonneg_left h2 (show 0 ≤ 1 + R.u by linarith)
    rw [pow_succ, mul_comm ((1 + R.u) ^ k), mul_assoc]
    nlinarith

/-- Subtracting a number that was added moves it to the offset. -/
theorem Rel.sub {k : ℕ} {v e b : ℚ} (h : Rel R k 0 v e) : Rel R k b (v - b) (e - b) := by
  simpa [Rel] using h

theorem rel_dist (x y : ℚ) : Rel R 1 0 (|R.fl (x - y)|) (|x - y|) := by
  rw [abs_fl]
  have := (Rel.refl (R := R) (v := |x - y|)).fl (abs_nonneg _) le_rfl
  simpa using this

theorem rel_emd {x y : List ℚ} (hx : x.Pairwise (· ≤ ·)) (hy : y.Pairwise (· ≤ ·)) :
    Rel R (x.length + y.length) 0 (alignF R x.reverse y.reverse) (emd x y) := by
  have e : emd x y = align absd x.reverse y.reverse := by
    rw [← emd_of_desc (by rw [List.pairwise_reverse]; exact hx)
      (by rw [List.pairwise_reverse]; exact hy), emd_perm (List.reverse_perm _) (List.reverse_perm _)]
  rw [e]
  have h1 := alignF_lower (R := R) x.reverse y.reverse
  have h2 := alignF_upper (R := R) x.reverse y.reverse
  simp only [List.length_reverse] at h1 h2
  exact ⟨by simpa using h1, by simpa using h2⟩

/-- The least of related numbers. -/
theorem Rel.pyMin {α : Type} {k : ℕ} {f g : α → ℚ} {l : List α} {m : ℚ}
    (h : ∀ a ∈ l, Rel R k 0 (f a) (g a)) (hm : pyMin (l.map g) = .ok m) :
    ∃ m', Verif.pyMin (l.map f) = .ok m' ∧ Rel R k 0 m' m ∧ m' ∈ l.map f := by
  have hu := R.u_pos
  have hu1 := R.u_lt
  cases l with
  | nil => simp [Verif.pyMin] at hm
  | cons a l =>
    simp only [List.map_cons, Verif.pyMin] at hm ⊢
    injection hm with hm
    refine ⟨_, rfl, ?_⟩
    have f1 := foldl_min_le (l.map f) (f a)
    have f2 := foldl_min_mem (l.map f) (f a)
    have g1 := foldl_min_le (l.map g) (g a)
    have g2 := foldl_min_mem (l.map g) (g a)
    rw [hm] at g1 g2
    generalize (l.map f).foldl min (f a) = m' at *
    have F1 : ∀ b ∈ a :: l, m' ≤ f b := by
      intro b hb
      rcases List.mem_cons.1 hb with rfl | hb
      · exact f1.1
      · exact f1.2 _ (List.mem_map_of_mem hb)
    have G1 : ∀ b ∈ a :: l, m ≤ g b := by
      intro b hb
      rcases List.mem_cons.1 hb with rfl | hb
      · exact g1.1
      · exact g1.2 _ (List.mem_map_of_mem hb)
    have F2 : ∃ b ∈ a :: l, m' = f b := by
      rcases f2 with h | h
      · exact ⟨a, by simp, h⟩
      · obtain ⟨b, hb, e⟩ := List.mem_map.1 h
        exact ⟨b, by simp [hb], e.symm⟩
    have G2 : ∃ b ∈ a :: l, m = g b := by
      rcases g2 with h | h
      · exact ⟨a, by simp, h⟩
      · obtain ⟨b, hb, e⟩ := List.mem_map.1 h
        exact ⟨b, by simp [hb], e.symm⟩
    obtain ⟨b, hb, eb⟩ := F2
    obtain ⟨b', hb', eb'⟩ := G2
    refine ⟨⟨?_, ?_⟩, ?_⟩
    · have := (h b hb).1
      have t := mul_le_mul_of_nonneg_left (G1 b hb)
        (show 0 ≤ (1 - R.u) ^ k from pow_nonneg (by linarith) _)
      simp only [add_zero] at this ⊢
      rw [eb]; linarith
    · have := (h b' hb').2
      have t := F1 b' hb'
      simp only [add_zero] at this ⊢
      rw [eb']; linarith
    · rw [← List.map_cons (f := f), eb]; exact List.mem_map_of_mem hb

theorem rel_zipCost {M : ℕ} (hM : (M : ℕ∞) ≤ R.sumMax) {xs ys : List ℚ}
    (hl : min xs.length ys.length ≤ M) :
    Rel R (min xs.length ys.length + 1) 0 (zipCostF R xs ys) (zipCost xs ys) ∧
      0 ≤ zipCostF R xs ys := by
  have hu := R.u_pos
  have hu' := R.u_lt
  have hm : ((List.zipWith (fun x y => |R.fl (x - y)|) xs ys).length : ℕ∞) ≤ R.sumMax := by
    refine le_trans ?_ hM
    rw [List.length_zipWith]
    exact_mod_cast hl
  have hf : ∀ v ∈ List.zipWith (fun x y => |R.fl (x - y)|) xs ys, 0 ≤ v ∧ R.fl v = v := by
    intro v hv
    rw [← List.map_uncurry_zip_eq_zipWith] at hv
    obtain ⟨⟨x, y⟩, hp, rfl⟩ := List.mem_map.1 hv
    refine ⟨abs_nonneg _, ?_⟩
    change R.fl |R.fl (x - y)| = |R.fl (x - y)|
    rw [abs_fl, R.idem]
  obtain ⟨b1, b2⟩ := R.sum_bounds _ hf hm
  have hz : ∀ (xs ys : List ℚ), (1 - R.u) * zipCost xs ys ≤
        (List.zipWith (fun x y => |R.fl (x - y)|) xs ys).sum ∧
      (List.zipWith (fun x y => |R.fl (x - y)|) xs ys).sum ≤ (1 + R.u) * zipCost xs ys := by
    intro xs
    induction xs with
    | nil => intro ys; simp [zipCost]
    | cons x xs ih =>
      intro ys
      cases ys with
      | nil => simp [zipCost]
      | cons y ys =>
        obtain ⟨i1, i2⟩ := ih ys
        obtain ⟨d1, d2⟩ := rel_dist (R := R) x y
        simp only [add_zero, pow_one] at d1 d2
        simp only [zipCost, List.zipWith_cons_cons, List.sum_cons] at i1 i2 ⊢
        constructor <;> linarith
  obtain ⟨z1, z2⟩ := hz xs ys
  rw [List.length_zipWith] at b1 b2
  have p1 : 0 ≤ (1 - R.u) ^ min xs.length ys.length := pow_nonneg (by linarith) _
  have p2 : 0 ≤ (1 + R.u) ^ min xs.length ys.length := pow_nonneg (by linarith) _
  refine ⟨⟨?_, ?_⟩, ?_⟩
  · rw [add_zero, add_zero, pow_succ, mul_assoc]
    exact (mul_le_mul_of_nonneg_left z1 p1).trans b1
  · rw [add_zero, add_zero, pow_succ, mul_assoc]
    exact b2.trans (mul_le_mul_of_nonneg_left z2 p2)
  · exact le_trans (mul_nonneg p1 (List.sum_nonneg (fun v hv => (hf v hv).1))) b1

/-! ## The loop over components -/

/-- Contract of a component handler with respect to a relation between the accumulated distance
and the exact one. -/
def CompRel (L : List (ℚ × Bool)) (P : ℕ → ℚ → ℚ → Prop)
    (comp : ℚ → ℕ → ℕ → ℕ → Except PyErr ℚ) : Prop :=
  ∀ d e seen l r, seen ≤ l → l ≤ r → r < L.length →
    (∀ i a, seen ≤ i → i < l → L[i]? ≠ some (a, true)) →
    (ysOf (seg L l r)).length ≤ (xsOf (seg L l r)).length → P seen d e →
    ∃ d', comp d seen l r = .ok d' ∧
      P (r + 1) d' (e + ((l : ℚ) - seen) + emd (xsOf (seg L l r)) (ysOf (seg L l r)))

theorem mergeLoop_rel {L : List (ℚ × Bool)} {Q : List (ℕ × ℕ)} (hL : L.Pairwise LocLe)
    (hN : (ysOf L).length ≤ (xsOf L).length) (hQ : RangesOk L Q) {P : ℕ → ℚ → ℚ → Prop}
    {comp : ℚ → ℕ → ℕ → ℕ → Except PyErr ℚ} (hcomp : CompRel L P comp) (rest : List (ℕ × ℕ)) :
    ∀ (d e : ℚ) (seen l r : ℕ), seen ≤ l → l ≤ r → r < L.length → P seen d e →
      (∀ p ∈ Q, p.2 < seen ∨ (l ≤ p.1 ∧ p.2 ≤ r) ∨ p ∈ rest) →
      (∀ p ∈ rest, l ≤ p.1 ∧ p ∈ Q) → rest.Pairwise (fun p q => p.1 ≤ q.1) →
      ∃ d' s' e', mergeLoop comp d seen l r rest = .ok (d', s') ∧ s' ≤ L.length ∧ P s' d' e' ∧
        e' + ((L.length : ℚ) - s') = e + emd (xsOf (L.drop seen)) (ysOf (L.drop seen)) ∧
        (∀ (i : ℕ) (a : ℚ), s' ≤ i → L[i]? ≠ some (a, true)) := by
  induction rest with
  | nil =>
    intro d e seen l r h1 h2 h3 hP hp _ _
    have hp' : ∀ p ∈ Q, p.2 < seen ∨ (l ≤ p.1 ∧ p.2 ≤ r) := by
      intro p hpR
      rcases hp p hpR with h | h | h
      · exact Or.inl h
      · exact Or.inr h
      · simp at h
    have hgap : ∀ i a, seen ≤ i → i < l → L[i]? ≠ some (a, true) := by
      intro i a hi1 hi2 hi
      obtain ⟨p, hpR, h4⟩ := hQ.covy i a hi
      have := hp' p hpR
      omega
    have hl : ∀ p ∈ Q, ¬ (p.1 < l ∧ l ≤ p.2) := fun p hpR => by have := hp' p hpR; omega
    have hr : ∀ p ∈ Q, ¬ (p.1 < r + 1 ∧ r + 1 ≤ p.2) := fun p hpR => by have := hp' p hpR; omega
    have hend : ∀ i a, r + 1 ≤ i → L[i]? ≠ some (a, true) := by
      intro i a hi1 hi
      obtain ⟨p, hpR, h4⟩ := hQ.covy i a hi
      have := hp' p hpR
      omega
    obtain ⟨d', hc, hP'⟩ := hcomp d e seen l r h1 h2 h3 hgap (component_len hN hQ h2 h3 hl hr) hP
    refine ⟨d', r + 1, _, by unfold mergeLoop; rw [hc]; rfl, by omega, hP', ?_, hend⟩
    rw [component_cost hL hQ h1 h2 h3 hgap hl hr]
    have hx : ∀ p ∈ L.drop (r + 1), p.2 = false := by
      have := gap_x (L := L) (a := r + 1) (b := L.length) (fun i c hi _ => hend i c hi)
      rwa [List.take_length] at this
    obtain ⟨hy, hx'⟩ := ysOf_eq_nil hx
    rw [hy, emd_nil_right, hx', List.length_drop, Nat.cast_sub (by omega)]
    ring
  | cons q rest ih =>
    obtain ⟨l', r'⟩ := q
    intro d e seen l r h1 h2 h3 hP hp hrest hsort
    rw [List.pairwise_cons] at hsort
    have hq := hrest (l', r') List.mem_cons_self
    have hq' := hQ.rng _ hq.2
    simp only at hq hq'
    unfold mergeLoop
    split_ifs with hle
    · refine ih d e seen l (max r r') h1 (by omega) (by omega) hP ?_
        (fun p hp => hrest p (List.mem_cons_of_mem _ hp)) hsort.2
      intro p hpR
      rcases hp p hpR with h | h | h
      · exact Or.inl h
      · exact Or.inr (Or.inl ⟨h.1, by omega⟩)
      · rcases List.mem_cons.1 h with rfl | h
        · exact Or.inr (Or.inl ⟨hq.1, by simp⟩)
        · exact Or.inr (Or.inr h)
    · have hp' : ∀ p ∈ Q, p.2 < seen ∨ (l ≤ p.1 ∧ p.2 ≤ r) ∨ l' ≤ p.1 := by
        intro p hpR
        rcases hp p hpR with h | h | h
        · exact Or.inl h
        · exact Or.inr (Or.inl h)
        · rcases List.mem_cons.1 h with rfl | h
          · exact Or.inr (Or.inr (le_refl _))
          · exact Or.inr (Or.inr (hsort.1 p h))
      have hgap : ∀ i a, seen ≤ i → i < l → L[i]? ≠ some (a, true) := by
        intro i a hi1 hi2 hi
        obtain ⟨p, hpR, h4⟩ := hQ.covy i a hi
        have := hp' p hpR
        omega
      have hl : ∀ p ∈ Q, ¬ (p.1 < l ∧ l ≤ p.2) := fun p hpR => by have := hp' p hpR; omega
      have hr : ∀ p ∈ Q, ¬ (p.1 < r + 1 ∧ r + 1 ≤ p.2) := fun p hpR => by
        have := hp' p hpR; omega
      obtain ⟨d1, hc, hP1⟩ := hcomp d e seen l r h1 h2 h3 hgap
        (component_len hN hQ h2 h3 hl hr) hP
      rw [hc]
      obtain ⟨d', s', e', eq, h4, hP', h5, h6⟩ := ih d1 _ (r + 1) l' r'
        (by omega) hq'.1 hq'.2 hP1 (by
          intro p hpR
          rcases hp p hpR with h | h | h
          · exact Or.inl (by omega)
          · exact Or.inl (by omega)
          · rcases List.mem_cons.1 h with rfl | h
            · exact Or.inr (Or.inl ⟨le_refl _, le_refl _⟩)
            · exact Or.inr (Or.inr h))
        (fun p hp => ⟨hsort.1 p hp, (hrest p (List.mem_cons_of_mem _ hp)).2⟩) hsort.2
      refine ⟨d', s', e', eq, h4, hP', ?_, h6⟩
      rw [h5, component_cost hL hQ h1 h2 h3 hgap hl hr]
      ring

theorem processRanges_rel {L : List (ℚ × Bool)} {Q : List (ℕ × ℕ)} (hL : L.Pairwise LocLe)
    (hN : (ysOf L).length ≤ (xsOf L).length) (hQ : RangesOk L Q) {P : ℕ → ℚ → ℚ → Prop}
    {comp : ℚ → ℕ → ℕ → ℕ → Except PyErr ℚ} (hcomp : CompRel L P comp) (h0 : P 0 0 0) :
    ∃ d' s' e', processRanges comp Q = .ok (d', s') ∧ s' ≤ L.length ∧ P s' d' e' ∧
        e' + ((L.length : ℚ) - s') = emd (xsOf L) (ysOf L) ∧
        (∀ (i : ℕ) (a : ℚ), s' ≤ i → L[i]? ≠ some (a, true)) := by
  have hperm := List.perm_insertionSort rangeLe Q
  have hsort := List.pairwise_insertionSort rangeLe Q
  unfold processRanges
  cases hS : Q.insertionSort rangeLe with
  | nil =>
    rw [hS] at hperm
    have hRn : Q = [] := hperm.symm.eq_nil
    have hno : ∀ (i : ℕ) (a : ℚ), L[i]? ≠ some (a, true) := by
      intro i a hi
      obtain ⟨p, hp, _⟩ := hQ.covy i a hi
      simp [hRn] at hp
    refine ⟨0, 0, 0, rfl, by omega, h0, ?_, fun i a _ => hno i a⟩
    have hx : ∀ p ∈ L, p.2 = false := by
      have := gap_x (L := L) (a := 0) (b := L.length) (fun i c _ _ => hno i c)
      rwa [List.take_length] at this
    obtain ⟨hy, hx'⟩ := ysOf_eq_nil hx
    rw [hy, emd_nil_right, hx']
    simp
  | cons q rest =>
    obtain ⟨l, r⟩ := q
    rw [hS] at hperm hsort
    have hmem : ∀ p, p ∈ Q ↔ p ∈ (l, r) :: rest := fun p => (hperm.mem_iff).symm
    rw [List.pairwise_cons] at hsort
    have hlr := hQ.rng (l, r) ((hmem _).2 List.mem_cons_self)
    have le1 : ∀ p q : ℕ × ℕ, rangeLe p q → p.1 ≤ q.1 := by
      intro p q h; unfold rangeLe at h; omega
    have := mergeLoop_rel hL hN hQ hcomp rest 0 0 0 l r (by omega) hlr.1 hlr.2 h0 (by
      intro p hp
      rcases List.mem_cons.1 ((hmem p).1 hp) with rfl | h
      · exact Or.inr (Or.inl ⟨le_refl _, le_refl _⟩)
      · exact Or.inr (Or.inr h))
      (fun p hp => ⟨le1 _ _ (hsort.1 p hp), (hmem p).2 (List.mem_cons_of_mem _ hp)⟩)
      (hsort.2.imp (fun h => le1 _ _ h))
    simpa using this

end Fp
end Verif
