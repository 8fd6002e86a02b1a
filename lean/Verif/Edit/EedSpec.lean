import Verif.Edit.EedModel
import Mathlib.Order.Bounds.Basic
import Mathlib.Algebra.BigOperators.Group.Finset.Basic

/-!
# Specification of the extended edit distance: cheapest walks in the alignment grid

A walk reads the reference from left to right while a cursor moves over the gaps of the
hypothesis. `Before i j x`: some walk of cost `x` has read `i` characters of the reference, has the
cursor at gap `j` and may still jump; `After i j x`: the same, the jump done or waived.
-/

namespace Verif
namespace EedSpec

variable {α : Type}

section
variable (c : Edit.EedCosts) (space : α → Prop) (hyp ref : List α)

mutual

/-- Walks that have just read character `i` of the reference. -/
inductive Before : Nat → Nat → ℚ → Prop where
  /-- Read a character at the left border, at cost 1. -/
  | border {i x} : i < ref.length → After i 0 x → Before (i + 1) 0 (x + 1)
  /-- Skip a character of the hypothesis. -/
  | skip {i j x} : j < hyp.length → Before (i + 1) j x → Before (i + 1) (j + 1) (x + c.deletion)
  /-- Read a character and match it with the same character of the hypothesis, free of charge. -/
  | same {i j x} {a : α} : ref[i]? = some a → hyp[j]? = some a → After i j x →
      Before (i + 1) (j + 1) x
  /-- Read a character and match it with another one. -/
  | subst {i j x} {a b : α} : ref[i]? = some a → hyp[j]? = some b → a ≠ b → After i j x →
      Before (i + 1) (j + 1) (x + c.substitution)
  /-- Read a character without moving. -/
  | read {i j x} : i < ref.length → j < hyp.length → After i (j + 1) x →
      Before (i + 1) (j + 1) (x + c.insertion)

/-- Walks ready to read the next character. -/
inductive After : Nat → Nat → ℚ → Prop where
  | start : After 0 0 0
  /-- The first row: any other gap at cost 1. -/
  | first {j} : j < hyp.length → After 0 (j + 1) 1
  | stay {i j x} : Before (i + 1) j x → After (i + 1) j x
  /-- After whitespace in the reference the cursor may jump anywhere. -/
  | jump {i j j' x} {a : α} : ref[i]? = some a → space a → j' ≤ hyp.length → Before (i + 1) j x →
      After (i + 1) j' (x + c.jump)

end

/-- Gap `j` is the leftmost one reached most cheaply when character `i` has been read. -/
def Visited (i j : Nat) : Prop :=
  ∃ x, Before c space hyp ref (i + 1) j x ∧
    ∀ j' x', Before c space hyp ref (i + 1) j' x' → x ≤ x' ∧ (x' = x → j ≤ j')

open Classical in
/-- How often gap `j` is visited while the first `n` characters are read. -/
noncomputable def visits (n j : Nat) : Nat :=
  ((List.range n).filter (fun i => decide (Visited c space hyp ref i j))).length

/-- The coverage penalty: every gap should be visited exactly once. -/
noncomputable def coverage : ℚ :=
  ((List.range (hyp.length + 1)).map
    (fun j => |((visits c space hyp ref ref.length j : Nat) : ℚ) - 1|)).sum

end

end EedSpec
end Verif
