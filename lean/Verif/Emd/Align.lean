import Mathlib.Algebra.Order.Field.Rat
import Mathlib.Algebra.Order.Group.Abs
import Mathlib.Tactic.Linarith

/-!
# Alignment recursion (generic)

`align c` is the standard edit-style recursion with substitution cost `c` and unit gap cost.
-/

namespace Verif

variable {α β γ : Type}

/-- The alignment recursion with substitution cost `c` and gap cost 1. -/
def align (c : α → β → ℚ) : List α → List β → ℚ
  | [], ys => ys.length
  | x :: xs, [] => (x :: xs).length
  | x :: xs, y :: ys =>
    min (min (c x y + align c xs ys) (1 + align c xs (y :: ys))) (1 + align c (x :: xs) ys)
termination_by xs ys => xs.length + ys.length

@[simp] theorem align_nil_left (c : α → β → ℚ) (ys : List β) : align c [] ys = ys.length := by
  simp [align]

@[simp] theorem align_nil_right (c : α → β → ℚ) (xs : List α) : align c xs [] = xs.length := by
  cases xs <;> simp [align]

theorem align_cons_cons (c : α → β → ℚ) (x : α) (xs : List α) (y : β) (ys : List β) :
    align c (x :: xs) (y :: ys) =
      min (min (c x y + align c xs ys) (1 + align c xs (y :: ys)))
        (1 + align c (x :: xs) ys) := by
  rw [align]

/-- Case split on which branch attains the minimum. -/
theorem align_cons_cases (c : α → β → ℚ) (x : α) (xs : List α) (y : β) (ys : List β) :
    align c (x :: xs) (y :: ys) = c x y + align c xs ys ∨
    align c (x :: xs) (y :: ys) = 1 + align c xs (y :: ys) ∨
    align c (x :: xs) (y :: ys) = 1 + align c (x :: xs) ys := by
  rw [align_cons_cons]
  rcases min_choice (min (c x y + align c xs ys) (1 + align c xs (y :: ys)))
    (1 + align c (x :: xs) ys) with h | h
  · rcases min_choice (c x y + align c xs ys) (1 + align c xs (y :: ys)) with h' | h'
    · left; rw [h, h']
    · right; left; rw [h, h']
  · right; right; exact h

theorem align_le_match (c : α → β → ℚ) (x : α) (xs : List α) (y : β) (ys : List β) :
    align c (x :: xs) (y :: ys) ≤ c x y + align c xs ys := by
  rw [align_cons_cons]; exact le_trans (min_le_left _ _) (min_le_left _ _)

theorem align_le_left (c : α → β → ℚ) (x : α) (xs : List α) (ys : List β) :
    align c (x :: xs) ys ≤ 1 + align c xs ys := by
  cases ys with
  | nil => simp; linarith
  | cons y ys => rw [align_cons_cons]; exact le_trans (min_le_left _ _) (min_le_right _ _)

theorem align_le_right (c : α → β → ℚ) (xs : List α) (y : β) (ys : List β) :
    align c xs (y :: ys) ≤ 1 + align c xs ys := by
  cases xs with
  | nil => simp; linarith
  | cons x xs => rw [align_cons_cons]; exact min_le_right _ _

/-- An induction principle following the recursion of `align`. -/
theorem align_induction {motive : List α → List β → Prop}
    (nil_left : ∀ ys, motive [] ys) (nil_right : ∀ x xs, motive (x :: xs) [])
    (cons : ∀ x xs y ys, motive xs ys → motive xs (y :: ys) → motive (x :: xs) ys →
      motive (x :: xs) (y :: ys)) : ∀ xs ys, motive xs ys := by
  intro xs
  induction xs with
  | nil => exact nil_left
  | cons x xs ihx =>
    intro ys
    induction ys with
    | nil => exact nil_right x xs
    | cons y ys ihy => exact cons x xs y ys (ihx ys) (ihx (y :: ys)) ihy

theorem align_comm (c : α → β → ℚ) (xs : List α) (ys : List β) :
    align c xs ys = align (fun y x => c x y) ys xs := by
  induction xs, ys using align_induction with
  | nil_left ys => simp
  | nil_right x xs => simp
  | cons x xs y ys h1 h2 h3 =>
    rw [align_cons_cons, align_cons_cons, h1, h2, h3, min_assoc, min_assoc, min_comm (1 + _)]

theorem align_le_add (c : α → β → ℚ) (xs : List α) (ys : List β) :
    align c xs ys ≤ xs.length + ys.length := by
  induction xs with
  | nil => simp
  | cons x xs ih =>
    have := align_le_left c x xs ys
    push_cast [List.length_cons]; linarith

theorem align_nonneg {c : α → β → ℚ} (hc : ∀ x y, 0 ≤ c x y) (xs : List α) (ys : List β) :
    0 ≤ align c xs ys := by
  induction xs, ys using align_induction with
  | nil_left ys => simp
  | nil_right x xs => simp; positivity
  | cons x xs y ys h1 h2 h3 =>
    rcases align_cons_cases c x xs y ys with h | h | h <;> rw [h]
    · have := hc x y; linarith
    · linarith
    · linarith

/-- The alignment cost is at least the difference in length. -/
theorem sub_le_align {c : α → β → ℚ} (hc : ∀ x y, 0 ≤ c x y) (xs : List α) (ys : List β) :
    (xs.length : ℚ) - ys.length ≤ align c xs ys := by
  induction xs, ys using align_induction with
  | nil_left ys => simp
  | nil_right x xs => simp
  | cons x xs y ys h1 h2 h3 =>
    push_cast [List.length_cons] at *
    rcases align_cons_cases c x xs y ys with h | h | h <;> rw [h]
    · have := hc x y; linarith
    · linarith
    · linarith

theorem sub_le_align' {c : α → β → ℚ} (hc : ∀ x y, 0 ≤ c x y) (xs : List α) (ys : List β) :
    (ys.length : ℚ) - xs.length ≤ align c xs ys := by
  rw [align_comm]; exact sub_le_align (fun y x => hc x y) ys xs

/-- Triangle inequality for alignments, given the triangle inequality for substitutions. -/
theorem align_triangle {c1 : α → β → ℚ} {c2 : β → γ → ℚ} {c3 : α → γ → ℚ}
    (h1 : ∀ x y, 0 ≤ c1 x y) (h2 : ∀ y z, 0 ≤ c2 y z)
    (ht : ∀ x y z, c3 x z ≤ c1 x y + c2 y z) :
    ∀ (ys : List β) (xs : List α) (zs : List γ),
      align c3 xs zs ≤ align c1 xs ys + align c2 ys zs := by
  suffices H : ∀ n (ys : List β) (xs : List α) (zs : List γ),
      xs.length + ys.length + zs.length ≤ n →
      align c3 xs zs ≤ align c1 xs ys + align c2 ys zs from fun ys xs zs => H _ ys xs zs le_rfl
  intro n
  induction n with
  | zero =>
    intro ys xs zs h
    have hx : xs = [] := List.length_eq_zero_iff.mp (by omega)
    have hy : ys = [] := List.length_eq_zero_iff.mp (by omega)
    have hz : zs = [] := List.length_eq_zero_iff.mp (by omega)
    subst hx hy hz; simp
  | succ n ih =>
    intro ys xs zs h
    match xs, ys, zs with
    | [], ys, zs =>
      have := sub_le_align' h2 ys zs
      simp; linarith
    | x :: xs, ys, [] =>
      have := sub_le_align h1 (x :: xs) ys
      simp at *; linarith
    | x :: xs, [], z :: zs =>
      have := align_le_add c3 (x :: xs) (z :: zs)
      simpa using this
    | x :: xs, y :: ys, z :: zs =>
      simp only [List.length_cons] at h
      rcases align_cons_cases c1 x xs y ys with ha | ha | ha
      · rcases align_cons_cases c2 y ys z zs with hb | hb | hb
        · have := ih ys xs zs (by omega)
          have := align_le_match c3 x xs z zs
          have := ht x y z
          rw [ha, hb]; linarith
        · have := ih ys xs (z :: zs) (by simp only [List.length_cons]; omega)
          have := align_le_left c3 x xs (z :: zs)
          have := h1 x y
          rw [ha, hb]; linarith
        · have := ih (y :: ys) (x :: xs) zs (by simp only [List.length_cons]; omega)
          have := align_le_right c3 (x :: xs) z zs
          rw [hb]; linarith
      · have := ih (y :: ys) xs (z :: zs) (by simp only [List.length_cons]; omega)
        have := align_le_left c3 x xs (z :: zs)
        rw [ha]; linarith
      · rcases align_cons_cases c2 y ys z zs with hb | hb | hb
        · have := ih ys (x :: xs) zs (by simp only [List.length_cons]; omega)
          have := align_le_right c3 (x :: xs) z zs
          have := h2 y z
          rw [ha, hb]; linarith
        · have := ih ys (x :: xs) (z :: zs) (by simp only [List.length_cons]; omega)
          rw [ha, hb]; linarith
        · have := ih (y :: ys) (x :: xs) zs (by simp only [List.length_cons]; omega)
          have := align_le_right c3 (x :: xs) z zs
          rw [hb]; linarith

end Verif
