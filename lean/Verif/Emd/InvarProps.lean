import Verif.Emd.VariantProps
import Mathlib.Data.List.Perm.Basic
import Mathlib.Algebra.Order.Ring.Abs

/-!
# Properties C216–C217: what the distance of positions depends on

C216: points that both sides have do not matter. C217: moving points changes the distance by at
most the distances moved, and maps that keep distances keep the result.
-/

namespace Verif

open EmdSpec

/-! ### Points in common -/

/-- **C216.** Points that both sequences have can be left out of both, whatever else they hold. -/
theorem C216_common_points (cs xs ys : List ℚ) : emdDp (cs ++ xs) (cs ++ ys) = emdDp xs ys := by
  rw [emdDp_ok, emdDp_ok, emd_append_common]

/-- **C216.** The same for the three other implementations, for points within the distance that
they support. -/
theorem C216_common_points_variants (cs xs ys : List ℚ) :
    (Spread2 (cs ++ xs) (cs ++ ys) → emdHybrid (cs ++ xs) (cs ++ ys) = emdHybrid xs ys) ∧
    (Spread1 (cs ++ xs) (cs ++ ys) → emdOld (cs ++ xs) (cs ++ ys) = emdOld xs ys ∧
      emdSlow (cs ++ xs) (cs ++ ys) = emdSlow xs ys) := by
  have hx : xs ⊆ cs ++ xs := List.subset_append_right _ _
  have hy : ys ⊆ cs ++ ys := List.subset_append_right _ _
  refine ⟨fun h => ?_, fun h => ⟨?_, ?_⟩⟩
  · rw [emdHybrid_eq h, emdHybrid_eq (h.mono hx hy), emd_append_common]
  · rw [emdOld_eq h, emdOld_eq (h.mono hx hy), emd_append_common]
  · rw [emdSlow_eq h, emdSlow_eq (h.mono hx hy), emd_append_common]

/-- **C216.** So only the two differences of the bags of points matter. -/
theorem C216_differences (xs ys : List ℚ) : emdDp xs ys = emdDp (xs.diff ys) (ys.diff xs) := by
  have hx : xs.Perm (xs.bagInter ys ++ xs.diff ys) := by
    rw [List.perm_iff_count]
    intro a
    rw [List.count_append, List.count_bagInter, List.count_diff]
    omega
  have hy : ys.Perm (xs.bagInter ys ++ ys.diff xs) := by
    rw [List.perm_iff_count]
    intro a
    rw [List.count_append, List.count_bagInter, List.count_diff]
    omega
  rw [emdDp_ok, emdDp_ok, emd_perm hx hy, emd_append_common]

example : emdDp [0, 1/2, 1/2, 1] [1/2, 1/4, 1, 1/2] = .ok (1/4) ∧ emdDp [0] [1/4] = .ok (1/4) ∧
    ([0, 1/2, 1/2, 1] : List ℚ).diff [1/2, 1/4, 1, 1/2] = [0] ∧
    ([1/2, 1/4, 1, 1/2] : List ℚ).diff [0, 1/2, 1/2, 1] = [1/4] := by
  refine ⟨?_, ?_, ?_, ?_⟩ <;> decide +kernel

/-- **C216.** When one side holds all points of the other, the distance is the number of points that
the other lacks, wherever they are. -/
theorem C216_contained {xs ys : List ℚ} (h : xs.Subperm ys) :
    emdDp xs ys = .ok ((ys.length : ℚ) - xs.length) := by
  obtain ⟨l, hl, hs⟩ := h
  obtain ⟨zs, hz'⟩ := hs.exists_perm_append
  have hz : ys.Perm (xs ++ zs) := hz'.trans (hl.append_right zs)
  rw [emdDp_ok, emd_perm (List.Perm.refl _) hz]
  have := emd_append_common xs [] zs
  rw [List.append_nil] at this
  rw [this, emd_nil_left, hz.length_eq, List.length_append]
  push_cast
  ring_nf

example : ([1/2, 0] : List ℚ).Subperm [0, 1/3, 1/2, 1] ∧ emdDp [1/2, 0] [0, 1/3, 1/2, 1] = .ok 2 := by
  constructor <;> decide +kernel

/-! ### Moving the points -/

theorem map_plan {f : ℚ → ℚ} {X Y : Multiset ℚ} {M : Multiset (ℚ × ℚ)} (h : IsPlan X Y M) :
    IsPlan (X.map f) (Y.map f) (M.map (fun p => (f p.1, f p.2))) := by
  constructor
  · have := Multiset.map_le_map (f := f) h.1
    simpa [Multiset.map_map, Function.comp_def] using this
  · have := Multiset.map_le_map (f := f) h.2
    simpa [Multiset.map_map, Function.comp_def] using this

theorem lift_plan {f : ℚ → ℚ} (M : Multiset (ℚ × ℚ)) : ∀ {X Y : Multiset ℚ},
    IsPlan (X.map f) (Y.map f) M → ∃ N, IsPlan X Y N ∧ N.map (fun p => (f p.1, f p.2)) = M := by
  induction M using Multiset.induction_on with
  | empty => intro X Y _; exact ⟨0, ⟨Multiset.zero_le _, Multiset.zero_le _⟩, rfl⟩
  | cons p M ih =>
    intro X Y h
    have hx : p.1 ∈ X.map f := Multiset.mem_of_le h.1 (by simp)
    have hy : p.2 ∈ Y.map f := Multiset.mem_of_le h.2 (by simp)
    obtain ⟨x, hx, ex⟩ := Multiset.mem_map.1 hx
    obtain ⟨y, hy, ey⟩ := Multiset.mem_map.1 hy
    obtain ⟨X', rfl⟩ := Multiset.exists_cons_of_mem hx
    obtain ⟨Y', rfl⟩ := Multiset.exists_cons_of_mem hy
    obtain ⟨h1, h2⟩ := h
    rw [Multiset.map_cons, Multiset.map_cons, ex, Multiset.cons_le_cons_iff] at h1
    rw [Multiset.map_cons, Multiset.map_cons, ey, Multiset.cons_le_cons_iff] at h2
    obtain ⟨N, hN, e⟩ := ih ⟨h1, h2⟩
    refine ⟨(x, y) ::ₘ N, ⟨?_, ?_⟩, ?_⟩
    · rw [Multiset.map_cons]; exact Multiset.cons_le_cons _ hN.1
    · rw [Multiset.map_cons]; exact Multiset.cons_le_cons _ hN.2
    · rw [Multiset.map_cons, e, ex, ey]

theorem sum_map_le_mul {ι : Type} {k : ℚ} {g h : ι → ℚ} (M : Multiset ι)
    (hg : ∀ p ∈ M, g p ≤ k * h p) : (M.map g).sum ≤ k * (M.map h).sum := by
  induction M using Multiset.induction_on with
  | empty => simp
  | cons p M ih =>
    rw [Multiset.map_cons, Multiset.map_cons, Multiset.sum_cons, Multiset.sum_cons, mul_add]
    exact add_le_add (hg p (by simp)) (ih (fun q hq => hg q (by simp [hq])))

theorem mem_of_plan {xs ys : List ℚ} {M : Multiset (ℚ × ℚ)}
    (hM : IsPlan (xs : Multiset ℚ) ys M) {p : ℚ × ℚ} (hp : p ∈ M) : p.1 ∈ xs ∧ p.2 ∈ ys :=
  ⟨Multiset.mem_coe.1 (Multiset.mem_of_le hM.1 (Multiset.mem_map_of_mem _ hp)),
    Multiset.mem_coe.1 (Multiset.mem_of_le hM.2 (Multiset.mem_map_of_mem _ hp))⟩

theorem planCost_map_le {f : ℚ → ℚ} {k : ℚ} (hk : 1 ≤ k) {xs ys : List ℚ}
    {M : Multiset (ℚ × ℚ)} (hM : IsPlan (xs : Multiset ℚ) ys M)
    (hf : ∀ x ∈ xs, ∀ y ∈ ys, |f x - f y| ≤ k * |x - y|) :
    planCost ((xs.map f : List ℚ) : Multiset ℚ) ((ys.map f : List ℚ) : Multiset ℚ)
        (M.map (fun p => (f p.1, f p.2))) ≤ k * planCost (xs : Multiset ℚ) ys M := by
  have h1 : (M.card : ℚ) ≤ xs.length := by exact_mod_cast plan_card_le_left hM
  have h2 : (M.card : ℚ) ≤ ys.length := by exact_mod_cast plan_card_le_right hM
  have h3 : (M.map (fun p => |f p.1 - f p.2|)).sum ≤ k * (M.map (fun p => |p.1 - p.2|)).sum :=
    sum_map_le_mul M (fun p hp => hf _ (mem_of_plan hM hp).1 _ (mem_of_plan hM hp).2)
  simp only [planCost, Multiset.map_map, Function.comp_def, Multiset.card_map, Multiset.coe_card,
    List.length_map]
  nlinarith

theorem le_planCost_map {f : ℚ → ℚ} {k : ℚ} (hk : 1 ≤ k) {xs ys : List ℚ}
    {M : Multiset (ℚ × ℚ)} (hM : IsPlan (xs : Multiset ℚ) ys M)
    (hf : ∀ x ∈ xs, ∀ y ∈ ys, |x - y| ≤ k * |f x - f y|) :
    planCost (xs : Multiset ℚ) ys M ≤
      k * planCost ((xs.map f : List ℚ) : Multiset ℚ) ((ys.map f : List ℚ) : Multiset ℚ)
        (M.map (fun p => (f p.1, f p.2))) := by
  have h1 : (M.card : ℚ) ≤ xs.length := by exact_mod_cast plan_card_le_left hM
  have h2 : (M.card : ℚ) ≤ ys.length := by exact_mod_cast plan_card_le_right hM
  have h3 : (M.map (fun p => |p.1 - p.2|)).sum ≤ k * (M.map (fun p => |f p.1 - f p.2|)).sum :=
    sum_map_le_mul M (fun p hp => hf _ (mem_of_plan hM hp).1 _ (mem_of_plan hM hp).2)
  simp only [planCost, Multiset.map_map, Function.comp_def, Multiset.card_map, Multiset.coe_card,
    List.length_map]
  nlinarith

theorem emd_map_le_mul {f : ℚ → ℚ} {k : ℚ} (hk : 1 ≤ k) {xs ys : List ℚ}
    (hf : ∀ x ∈ xs, ∀ y ∈ ys, |f x - f y| ≤ k * |x - y|) :
    emd (xs.map f) (ys.map f) ≤ k * emd xs ys := by
  obtain ⟨M, hM, e⟩ := (isEmd_emd xs ys).1
  rw [e]
  refine le_trans ((isEmd_emd _ _).2 ⟨_, ?_, rfl⟩) (planCost_map_le hk hM hf)
  rw [← Multiset.map_coe, ← Multiset.map_coe]
  exact map_plan hM

theorem le_mul_emd_map {f : ℚ → ℚ} {k : ℚ} (hk : 1 ≤ k) {xs ys : List ℚ}
    (hf : ∀ x ∈ xs, ∀ y ∈ ys, |x - y| ≤ k * |f x - f y|) :
    emd xs ys ≤ k * emd (xs.map f) (ys.map f) := by
  obtain ⟨M, hM, e⟩ := (isEmd_emd (xs.map f) (ys.map f)).1
  rw [e]
  rw [← Multiset.map_coe, ← Multiset.map_coe] at hM
  obtain ⟨N, hN, rfl⟩ := lift_plan M hM
  exact le_trans ((isEmd_emd xs ys).2 ⟨N, hN, rfl⟩) (le_planCost_map hk hN hf)

/-- **C217.** A map that keeps the distances between the points of the two sides keeps the result. -/
theorem C217_isometry {f : ℚ → ℚ} {xs ys : List ℚ}
    (hf : ∀ x ∈ xs, ∀ y ∈ ys, |f x - f y| = |x - y|) :
    emdDp (xs.map f) (ys.map f) = emdDp xs ys := by
  rw [emdDp_ok, emdDp_ok]
  congr 1
  refine le_antisymm ?_ ?_
  · simpa using emd_map_le_mul le_rfl (fun x hx y hy => by rw [hf x hx y hy, one_mul])
  · simpa using le_mul_emd_map le_rfl (fun x hx y hy => by rw [hf x hx y hy, one_mul])

/-- **C217.** All points may be shifted by the same amount, or reflected. -/
theorem C217_shift_reflect (c : ℚ) (xs ys : List ℚ) :
    emdDp (xs.map (fun x => x + c)) (ys.map (fun y => y + c)) = emdDp xs ys ∧
    emdDp (xs.map (fun x => c - x)) (ys.map (fun y => c - y)) = emdDp xs ys :=
  ⟨C217_isometry (fun x _ y _ => by rw [add_sub_add_right_eq_sub]),
    C217_isometry (fun x _ y _ => by rw [sub_sub_sub_cancel_left, abs_sub_comm])⟩

example : emdDp [0, 1/2, 1] [1/4] = .ok (9/4) ∧ emdDp [3, 7/2, 4] [13/4] = .ok (9/4) ∧
    emdDp [1, 1/2, 0] [3/4] = .ok (9/4) := by
  refine ⟨?_, ?_, ?_⟩ <;> decide +kernel

/-- **C217.** Stretching all positions by a factor of at least one makes the distance no smaller, and
no more than that factor larger. -/
theorem C217_stretch {k : ℚ} (hk : 1 ≤ k) {xs ys : List ℚ} {a b : ℚ} (ha : emdDp xs ys = .ok a)
    (hb : emdDp (xs.map (fun x => k * x)) (ys.map (fun y => k * y)) = .ok b) :
    a ≤ b ∧ b ≤ k * a := by
  rw [emdDp_ok] at ha hb
  injection ha with ha
  injection hb with hb
  subst ha hb
  have hd : ∀ x y : ℚ, |k * x - k * y| = k * |x - y| := fun x y => by
    rw [← mul_sub, abs_mul, abs_of_nonneg (by linarith)]
  constructor
  · have := le_mul_emd_map (f := fun x => k * x) (k := 1) le_rfl (xs := xs) (ys := ys)
      (fun x _ y _ => by
        rw [hd, one_mul]
        nlinarith [abs_nonneg (x - y)])
    simpa using this
  · exact emd_map_le_mul hk (fun x _ y _ => (hd x y).le)

/-- Both bounds are attained: points left over cost the same, points moved cost more. -/
example : emdDp [0, 1/4] [0] = .ok 1 ∧ emdDp [0, 1/2] [0] = .ok 1 ∧
    emdDp [0] [1/4] = .ok (1/4) ∧ emdDp [0] [1/2] = .ok (1/2) := by
  refine ⟨?_, ?_, ?_, ?_⟩ <;> decide +kernel

theorem emd_moved {xs xs' : List ℚ} {d : ℚ} (h : List.Forall₂ (fun a b => |a - b| ≤ d) xs xs') :
    emd xs xs' ≤ xs.length * d := by
  induction h with
  | nil => simp [emd_nil_left]
  | @cons a b l l' h _ ih =>
    refine (emd_le_match a b l l').trans ?_
    rw [List.length_cons]
    push_cast
    have : absd a b ≤ d := h
    nlinarith

/-- **C217.** Moving the points of one side by at most `d` each changes the result by at most `d` for
every point: small errors in positions cause small errors in distances. -/
theorem C217_moved {xs xs' ys : List ℚ} {d a b : ℚ}
    (h : List.Forall₂ (fun u v => |u - v| ≤ d) xs xs') (ha : emdDp xs ys = .ok a)
    (hb : emdDp xs' ys = .ok b) : |a - b| ≤ xs.length * d := by
  rw [emdDp_ok] at ha hb
  injection ha with ha
  injection hb with hb
  subst ha hb
  have h1 := emd_triangle xs xs' ys
  have h2 := emd_triangle xs' xs ys
  rw [emd_comm xs' xs] at h2
  have h3 := emd_moved h
  rw [abs_le]
  constructor <;> linarith

example : List.Forall₂ (fun u v : ℚ => |u - v| ≤ 1/10) [0, 1/2] [1/10, 2/5] ∧
    emdDp [0, 1/2] [0, 1/2, 1] = .ok 1 ∧ emdDp [1/10, 2/5] [0, 1/2, 1] = .ok (6/5) := by
  refine ⟨?_, by decide +kernel, by decide +kernel⟩
  refine .cons ?_ (.cons ?_ .nil) <;> norm_num [abs_le]

end Verif
