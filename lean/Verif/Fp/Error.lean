import Verif.Fp.Emd
import Verif.Core.Located

/-!
# Error of the rounded dynamic programme
-/

namespace Verif
namespace Fp

open EmdSpec

variable {R : Rounding}

theorem alignF_upper (xs ys : List ℚ) :
    alignF R xs ys ≤ (1 + R.u) ^ (xs.length + ys.length) * align absd xs ys := by
  have hu := R.u_pos
  have h1u : 1 ≤ 1 + R.u := by linarith
  have base : ∀ n : ℕ, R.fl n ≤ (1 + R.u) ^ n * n := by
    intro n
    rcases Nat.eq_zero_or_pos n with rfl | hn
    · simp [fl_zero]
    · refine (fl_upper (by positivity)).trans ?_
      refine mul_le_mul_of_nonneg_right ?_ (by positivity)
      calc 1 + R.u = (1 + R.u) ^ 1 := (pow_one _).symm
        _ ≤ _ := pow_le_pow_right₀ h1u hn
  match xs, ys with
  | [], ys =>
    rw [alignF_nil_left, align_nil_left, List.length_nil, Nat.zero_add]
    exact base _
  | x :: xs, [] =>
    rw [alignF_nil_right, align_nil_right, List.length_nil, Nat.add_zero]
    exact base _
  | x :: xs, y :: ys =>
    have i1 := alignF_upper xs ys
    have i2 := alignF_upper xs (y :: ys)
    have i3 := alignF_upper (x :: xs) ys
    have n1 := align_nonneg absd_nonneg xs ys
    have n2 := align_nonneg absd_nonneg xs (y :: ys)
    have n3 := align_nonneg absd_nonneg (x :: xs) ys
    rw [alignF_cons_cons, align_cons_cons]
    simp only [List.length_cons] at i1 i2 i3 ⊢
    set p := (1 + R.u) ^ (xs.length + ys.length) with hp
    have hp1 : 1 ≤ p := one_le_pow₀ h1u
    have e2 : (1 + R.u) ^ (xs.length + (ys.length + 1)) = p * (1 + R.u) := by rw [hp]; ring
    have e3 : (1 + R.u) ^ (xs.length + 1 + ys.length) = p * (1 + R.u) := by rw [hp]; ring
    have e4 : (1 + R.u) ^ (xs.length + 1 + (ys.length + 1)) = p * (1 + R.u) * (1 + R.u) := by
      rw [hp]; ring
    rw [e2] at i2
    rw [e3] at i3
    rw [e4]
    have hq : 0 ≤ p * (1 + R.u) * (1 + R.u) := by positivity
    rw [mul_min_of_nonneg _ _ hq, mul_min_of_nonneg _ _ hq]
    have hpu : 1 ≤ p * (1 + R.u) := by nlinarith
    have gap : ∀ {a b : ℚ}, 0 ≤ b → 0 ≤ a → a ≤ p * (1 + R.u) * b →
        R.fl (1 + a) ≤ p * (1 + R.u) * (1 + R.u) * (1 + b) := by
      intro a b hb ha hab
      refine (fl_upper (by linarith)).trans ?_
      have : 1 + a ≤ p * (1 + R.u) * (1 + b) := by linarith
      calc (1 + R.u) * (1 + a) ≤ (1 + R.u) * (p * (1 + R.u) * (1 + b)) :=
            mul_le_mul_of_nonneg_left this (by linarith)
        _ = _ := by ring
    refine min_le_min (min_le_min ?_ ?_) ?_
    · refine (fl_upper (add_nonneg (abs_nonneg _) (alignF_nonneg _ _))).trans ?_
      have h5 : |R.fl (x - y)| ≤ (1 + R.u) * |x - y| := by
        rw [abs_fl]; exact fl_upper (abs_nonneg _)
      have h6 : |R.fl (x - y)| + alignF R xs ys ≤ p * (1 + R.u) * (absd x y + align absd xs ys) := by
        have t1 : (1 + R.u) * |x - y| ≤ p * (1 + R.u) * |x - y| := by
          refine mul_le_mul_of_nonneg_right ?_ (abs_nonneg _)
          nlinarith
        have t2 : p * align absd xs ys ≤ p * (1 + R.u) * align absd xs ys := by
          refine mul_le_mul_of_nonneg_right ?_ n1
          nlinarith
        unfold absd at *
        linarith
      calc (1 + R.u) * (|R.fl (x - y)| + alignF R xs ys)
          ≤ (1 + R.u) * (p * (1 + R.u) * (absd x y + align absd xs ys)) :=
            mul_le_mul_of_nonneg_left h6 (by linarith)
        _ = _ := by ring
    · exact gap n2 (alignF_nonneg _ _) i2
    · exact gap n3 (alignF_nonneg _ _) i3
termination_by xs.length + ys.length

theorem alignF_lower (xs ys : List ℚ) :
    (1 - R.u) ^ (xs.length + ys.length) * align absd xs ys ≤ alignF R xs ys := by
  have hu := R.u_pos
  have hu1 := R.u_lt
  have h0 : 0 ≤ 1 - R.u := by linarith
  have h1u : 1 - R.u ≤ 1 := by linarith
  have base : ∀ n : ℕ, (1 - R.u) ^ n * n ≤ R.fl n := by
    intro n
    rcases Nat.eq_zero_or_pos n with rfl | hn
    · simp [fl_zero]
    · refine le_trans ?_ (fl_lower (by positivity))
      refine mul_le_mul_of_nonneg_right ?_ (by positivity)
      calc (1 - R.u) ^ n ≤ (1 - R.u) ^ 1 := pow_le_pow_of_le_one h0 h1u hn
        _ = _ := pow_one _
  match xs, ys with
  | [], ys =>
    rw [alignF_nil_left, align_nil_left, List.length_nil, Nat.zero_add]
    exact base _
  | x :: xs, [] =>
    rw [alignF_nil_right, align_nil_right, List.length_nil, Nat.add_zero]
    exact base _
  | x :: xs, y :: ys =>
    have i1 := alignF_lower xs ys
    have i2 := alignF_lower xs (y :: ys)
    have i3 := alignF_lower (x :: xs) ys
    have n1 := align_nonneg absd_nonneg xs ys
    have n2 := align_nonneg absd_nonneg xs (y :: ys)
    have n3 := align_nonneg absd_nonneg (x :: xs) ys
    rw [alignF_cons_cons, align_cons_cons]
    simp only [List.length_cons] at i1 i2 i3 ⊢
    set p := (1 - R.u) ^ (xs.length + ys.length) with hp
    have hp0 : 0 ≤ p := pow_nonneg h0 _
    have hp1 : p ≤ 1 := pow_le_one₀ h0 h1u
    have e2 : (1 - R.u) ^ (xs.length + (ys.length + 1)) = p * (1 - R.u) := by rw [hp]; ring
    have e3 : (1 - R.u) ^ (xs.length + 1 + ys.length) = p * (1 - R.u) := by rw [hp]; ring
    have e4 : (1 - R.u) ^ (xs.length + 1 + (ys.length + 1)) = p * (1 - R.u) * (1 - R.u) := by
      rw [hp]; ring
    rw [e2] at i2
    rw [e3] at i3
    rw [e4]
    have hq : 0 ≤ p * (1 - R.u) * (1 - R.u) := by positivity
    rw [mul_min_of_nonneg _ _ hq, mul_min_of_nonneg _ _ hq]
    have hpu : p * (1 - R.u) ≤ 1 := by nlinarith
    have gap : ∀ {a b : ℚ}, 0 ≤ b → 0 ≤ a → p * (1 - R.u) * b ≤ a →
        p * (1 - R.u) * (1 - R.u) * (1 + b) ≤ R.fl (1 + a) := by
      intro a b hb ha hab
      refine le_trans ?_ (fl_lower (by linarith))
      have : p * (1 - R.u) * (1 + b) ≤ 1 + a := by linarith
      calc p * (1 - R.u) * (1 - R.u) * (1 + b) = (1 - R.u) * (p * (1 - R.u) * (1 + b)) := by ring
        _ ≤ (1 - R.u) * (1 + a) := mul_le_mul_of_nonneg_left this h0
    refine min_le_min (min_le_min ?_ ?_) ?_
    · refine le_trans ?_ (fl_lower (add_nonneg (abs_nonneg _) (alignF_nonneg _ _)))
      have h5 : (1 - R.u) * |x - y| ≤ |R.fl (x - y)| := by
        rw [abs_fl]; exact fl_lower (abs_nonneg _)
      have h6 : p * (1 - R.u) * (absd x y + align absd xs ys) ≤ |R.fl (x - y)| + alignF R xs ys := by
        have t1 : p * (1 - R.u) * |x - y| ≤ (1 - R.u) * |x - y| := by
          refine mul_le_mul_of_nonneg_right ?_ (abs_nonneg _)
          nlinarith
        have t2 : p * (1 - R.u) * align absd xs ys ≤ p * align absd xs ys := by
          refine mul_le_mul_of_nonneg_right ?_ n1
          nlinarith
        unfold absd at *
        linarith
      calc p * (1 - R.u) * (1 - R.u) * (absd x y + align absd xs ys)
          = (1 - R.u) * (p * (1 - R.u) * (absd x y + align absd xs ys)) := by ring
        _ ≤ _ := mul_le_mul_of_nonneg_left h6 h0
    · exact gap n2 (alignF_nonneg _ _) i2
    · exact gap n3 (alignF_nonneg _ _) i3
termination_by xs.length + ys.length

theorem emdF_upper (xs ys : List ℚ) :
    emdF R xs ys ≤ (1 + R.u) ^ (xs.length + ys.length) * emd xs ys := by
  rw [emdF_eq_align, emd_eq_align]
  simpa [length_pySorted] using alignF_upper (R := R) (pySorted xs).reverse (pySorted ys).reverse

theorem emdF_lower (xs ys : List ℚ) :
    (1 - R.u) ^ (xs.length + ys.length) * emd xs ys ≤ emdF R xs ys := by
  rw [emdF_eq_align, emd_eq_align]
  simpa [length_pySorted] using alignF_lower (R := R) (pySorted xs).reverse (pySorted ys).reverse

theorem emdF_nonneg (xs ys : List ℚ) : 0 ≤ emdF R xs ys := by
  rw [emdF_eq_align]; exact alignF_nonneg _ _

theorem emdF_comm (xs ys : List ℚ) : emdF R xs ys = emdF R ys xs := by
  rw [emdF_eq_align, emdF_eq_align, alignF_comm]

theorem pySorted_congr {xs xs' : List ℚ} (h : xs.Perm xs') : pySorted xs = pySorted xs' := by
  have h1 : (pySorted xs).Perm (pySorted xs') :=
    (pySorted_perm xs).trans (h.trans (pySorted_perm xs').symm)
  exact h1.eq_of_pairwise' (List.pairwise_insertionSort _ _) (List.pairwise_insertionSort _ _)

theorem emdF_perm {xs xs' ys ys' : List ℚ} (hx : xs.Perm xs') (hy : ys.Perm ys') :
    emdF R xs ys = emdF R xs' ys' := by
  rw [emdF_eq_align, emdF_eq_align, pySorted_congr hx, pySorted_congr hy]

theorem emdF_eq_zero_iff (xs ys : List ℚ) : emdF R xs ys = 0 ↔ xs.Perm ys := by
  have hu := R.u_pos
  have hu1 := R.u_lt
  rw [← emd_eq_zero_iff]
  constructor
  · intro h
    have h1 := emdF_lower (R := R) xs ys
    rw [h] at h1
    have h2 := emd_nonneg xs ys
    have h3 : 0 < (1 - R.u) ^ (xs.length + ys.length) := pow_pos (by linarith) _
    nlinarith
  · intro h
    have h1 := emdF_upper (R := R) xs ys
    rw [h, mul_zero] at h1
    exact le_antisymm h1 (emdF_nonneg _ _)

theorem emdF_self (xs : List ℚ) : emdF R xs xs = 0 := (emdF_eq_zero_iff xs xs).2 (List.Perm.refl _)

theorem sub_le_emdF (xs ys : List ℚ) (hl : xs.length + ys.length ≤ 2 ^ 53) :
    (xs.length : ℚ) - ys.length ≤ emdF R xs ys := by
  rw [emdF_eq_align]
  have := alignF_ge (R := R) (pySorted xs).reverse (pySorted ys).reverse
    (by simpa [length_pySorted] using hl)
  simpa [length_pySorted] using this

theorem emdF_le_add (xs ys : List ℚ) (hl : xs.length + ys.length ≤ 2 ^ 53) :
    emdF R xs ys ≤ (xs.length : ℚ) + ys.length := by
  rw [emdF_eq_align]
  have := alignF_le (R := R) (pySorted xs).reverse (pySorted ys).reverse
    (by simpa [length_pySorted] using hl)
  simpa [length_pySorted] using this

theorem emdF_le_max {xs ys : List ℚ} (hl : xs.length + ys.length ≤ 2 ^ 53) (h : Spread1 xs ys) :
    emdF R xs ys ≤ max (xs.length : ℚ) ys.length := by
  rw [emdF_eq_align]
  have := alignF_le_max (R := R) (pySorted xs).reverse (pySorted ys).reverse
    (by simpa [length_pySorted] using hl)
    (fun x hx y hy => h x ((pySorted_perm xs).mem_iff.1 (List.mem_reverse.1 hx))
      y ((pySorted_perm ys).mem_iff.1 (List.mem_reverse.1 hy)))
  simpa [length_pySorted] using this

/-- If the number of points is small, the relative error is at most twice their number times the
unit roundoff. -/
theorem pow_upper {L : ℕ} {u : ℚ} (hu : 0 ≤ u) (h : L * u ≤ 1 / 2) :
    (1 + u) ^ L ≤ 1 + 2 * L * u := by
  induction L with
  | zero => simp
  | succ k ih =>
    push_cast at h ⊢
    have hk : (k : ℚ) * u ≤ 1 / 2 := by nlinarith
    have := ih hk
    rw [pow_succ]
    calc (1 + u) ^ k * (1 + u) ≤ (1 + 2 * k * u) * (1 + u) :=
          mul_le_mul_of_nonneg_right this (by linarith)
      _ ≤ _ := by nlinarith

theorem pow_lower {L : ℕ} {u : ℚ} (hu1 : u ≤ 1) : 1 - L * u ≤ (1 - u) ^ L := by
  have := one_add_mul_le_pow (a := -u) (by linarith) L
  rw [← sub_eq_add_neg] at this
  linarith

theorem emdF_err (xs ys : List ℚ) (h : ((xs.length + ys.length : ℕ) : ℚ) * R.u ≤ 1 / 2) :
    |emdF R xs ys - emd xs ys| ≤ 2 * ((xs.length + ys.length : ℕ) : ℚ) * R.u * emd xs ys := by
  have hu := R.u_pos
  have h0 := emd_nonneg xs ys
  have h1 := emdF_upper (R := R) xs ys
  have h2 := emdF_lower (R := R) xs ys
  have h3 := mul_le_mul_of_nonneg_right (pow_upper hu.le h) h0
  have h4 := mul_le_mul_of_nonneg_right
    (pow_lower (L := xs.length + ys.length) R.u_lt.le) h0
  have h5 : 0 ≤ ((xs.length + ys.length : ℕ) : ℚ) * R.u * emd xs ys := by positivity
  rw [abs_le]
  constructor <;> nlinarith

/-! ## Moving the points -/

theorem emd_map_le (f : ℚ → ℚ) {δ : ℚ} (xs : List ℚ) (h : ∀ x ∈ xs, |f x - x| ≤ δ) :
    emd (xs.map f) xs ≤ xs.length * δ := by
  have hle := (isEmd_emd (xs.map f) xs).2
  let M : Multiset (ℚ × ℚ) := ((xs.map fun x => (f x, x) : List (ℚ × ℚ)) : Multiset (ℚ × ℚ))
  have hp : IsPlan ((xs.map f : List ℚ) : Multiset ℚ) (xs : Multiset ℚ) M := by
    constructor
    · simp [M, Function.comp_def]
    · simp [M, Function.comp_def]
  refine (hle ⟨M, hp, rfl⟩).trans ?_
  have hc : planCost ((xs.map f : List ℚ) : Multiset ℚ) (xs : Multiset ℚ) M =
      (xs.map fun x => |f x - x|).sum := by
    simp [planCost, M, Function.comp_def]
  rw [hc]
  clear hc hp hle
  induction xs with
  | nil => simp
  | cons x xs ih =>
    have h1 := ih (fun y hy => h y (by simp [hy]))
    have h2 := h x (by simp)
    simp only [List.map_cons, List.sum_cons, List.length_cons]
    push_cast
    linarith

theorem emd_map_err (f : ℚ → ℚ) {δ : ℚ} (xs ys : List ℚ) (hx : ∀ x ∈ xs, |f x - x| ≤ δ)
    (hy : ∀ y ∈ ys, |f y - y| ≤ δ) :
    |emd (xs.map f) (ys.map f) - emd xs ys| ≤ ((xs.length + ys.length : ℕ) : ℚ) * δ := by
  have a := emd_map_le f xs hx
  have b := emd_map_le f ys hy
  have t1 := emd_triangle (xs.map f) xs (ys.map f)
  have t2 := emd_triangle xs ys (ys.map f)
  have t3 := emd_triangle xs (xs.map f) ys
  have t4 := emd_triangle (xs.map f) (ys.map f) ys
  rw [emd_comm ys (ys.map f)] at t2
  rw [emd_comm xs (xs.map f)] at t3
  rw [abs_le]
  push_cast
  constructor <;> nlinarith

/-! ## Exact distances of points on a grid -/

theorem align_grid {M₁ M₂ : ℕ} (h₁ : 0 < M₁) (h₂ : 0 < M₂) (xs ys : List ℚ)
    (hx : ∀ x ∈ xs, ∃ i : ℤ, x * M₁ = i) (hy : ∀ y ∈ ys, ∃ i : ℤ, y * M₂ = i) :
    ∃ k : ℤ, align absd xs ys * (M₁ * M₂) = k := by
  match xs, ys with
  | [], ys => exact ⟨ys.length * (M₁ * M₂), by rw [align_nil_left]; push_cast; ring⟩
  | x :: xs, [] => exact ⟨(x :: xs).length * (M₁ * M₂), by rw [align_nil_right]; push_cast; ring⟩
  | x :: xs, y :: ys =>
    obtain ⟨k1, i1⟩ := align_grid h₁ h₂ xs ys (fun a ha => hx a (by simp [ha]))
      (fun a ha => hy a (by simp [ha]))
    obtain ⟨k2, i2⟩ := align_grid h₁ h₂ xs (y :: ys) (fun a ha => hx a (by simp [ha])) hy
    obtain ⟨k3, i3⟩ := align_grid h₁ h₂ (x :: xs) ys hx (fun a ha => hy a (by simp [ha]))
    obtain ⟨p, hp⟩ := hx x (by simp)
    obtain ⟨q, hq⟩ := hy y (by simp)
    rcases align_cons_cases absd x xs y ys with e | e | e <;> rw [e]
    · have hd : absd x y * (M₁ * M₂) = ((|p * M₂ - q * M₁| : ℤ) : ℚ) := by
        have hm : (0 : ℚ) ≤ (M₁ : ℚ) * M₂ := by positivity
        unfold absd
        rw [← abs_of_nonneg hm, ← abs_mul, Int.cast_abs]
        congr 1
        push_cast
        rw [← hp, ← hq]
        ring
      exact ⟨|p * M₂ - q * M₁| + k1, by rw [add_mul, hd, i1]; push_cast; ring⟩
    · exact ⟨M₁ * M₂ + k2, by rw [add_mul, i2]; push_cast; ring⟩
    · exact ⟨M₁ * M₂ + k3, by rw [add_mul, i3]; push_cast; ring⟩
termination_by xs.length + ys.length

theorem emd_grid {M₁ M₂ : ℕ} (h₁ : 0 < M₁) (h₂ : 0 < M₂) (xs ys : List ℚ)
    (hx : ∀ x ∈ xs, ∃ i : ℤ, x * M₁ = i) (hy : ∀ y ∈ ys, ∃ i : ℤ, y * M₂ = i)
    (hne : emd xs ys ≠ 0) : 1 / ((M₁ : ℚ) * M₂) ≤ emd xs ys := by
  have h0 : 0 < emd xs ys := lt_of_le_of_ne (emd_nonneg _ _) (Ne.symm hne)
  obtain ⟨k, hk⟩ := align_grid h₁ h₂ (pySorted xs).reverse (pySorted ys).reverse
    (fun x hxx => hx x ((pySorted_perm xs).mem_iff.1 (List.mem_reverse.1 hxx)))
    (fun y hyy => hy y ((pySorted_perm ys).mem_iff.1 (List.mem_reverse.1 hyy)))
  rw [← emd_eq_align] at hk
  have hm : (0 : ℚ) < (M₁ : ℚ) * M₂ := by positivity
  have hk0 : (0 : ℚ) < k := by rw [← hk]; positivity
  have hk1 : (1 : ℚ) ≤ k := by exact_mod_cast (by exact_mod_cast hk0 : 0 < k)
  rw [div_le_iff₀ hm, hk]
  exact hk1

end Fp
end Verif
