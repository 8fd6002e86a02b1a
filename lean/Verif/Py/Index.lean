import Verif.Py.Basic
import Mathlib.Data.List.Basic
import Mathlib.Logic.Function.Basic

/-!
# Python list indexing with possibly negative indices
-/

namespace Verif

/-- The position meant by index `i` in a list of length `n`; `none` when out of range. -/
def pyIndex (n : Nat) (i : Int) : Option Nat :=
  if 0 ≤ i then (if i < n then some i.toNat else none)
  else if 0 ≤ (n : Int) + i then some ((n : Int) + i).toNat else none

/-- `xs[i]` for any integer index. -/
def pyGetI {α : Type} (xs : List α) (i : Int) : Except PyErr α :=
  match pyIndex xs.length i with
  | none => .error .indexError
  | some j => pyGet xs j

/-- `xs[i] = v` for any integer index. -/
def pySetI {α : Type} (xs : List α) (i : Int) (v : α) : Except PyErr (List α) :=
  match pyIndex xs.length i with
  | none => .error .indexError
  | some j => pySet xs j v

/-- The list with entries `f 0, …, f (n-1)`. -/
def tabulate {α : Type} (n : Nat) (f : Nat → α) : List α := (List.range n).map f

theorem length_tabulate {α : Type} (n : Nat) (f : Nat → α) : (tabulate n f).length = n := by
  simp [tabulate]

theorem tabulate_congr {α : Type} {n : Nat} {f g : Nat → α} (h : ∀ j, j < n → f j = g j) :
    tabulate n f = tabulate n g := by
  unfold tabulate
  exact List.map_congr_left (fun j hj => h j (List.mem_range.mp hj))

theorem pyGet_tabulate {α : Type} {n j : Nat} (f : Nat → α) (h : j < n) :
    pyGet (tabulate n f) j = .ok (f j) := by
  apply pyGet_ok'
  simp [tabulate, h]

theorem set_tabulate {α : Type} {n j : Nat} (f : Nat → α) (v : α) :
    (tabulate n f).set j v = tabulate n (Function.update f j v) := by
  refine List.ext_getElem (by simp [tabulate]) ?_
  intro i h1 h2
  rw [List.getElem_set]
  simp only [tabulate, List.getElem_map, List.getElem_range]
  by_cases hij : j = i
  · subst hij; simp
  · rw [if_neg hij, Function.update_of_ne (Ne.symm hij)]

theorem pySet_tabulate {α : Type} {n j : Nat} (f : Nat → α) (v : α) (h : j < n) :
    pySet (tabulate n f) j v = .ok (tabulate n (Function.update f j v)) := by
  rw [pySet_ok (by rwa [length_tabulate]), set_tabulate]

theorem pyIndex_nat {n j : Nat} (h : j < n) : pyIndex n j = some j := by
  simp [pyIndex, h]

theorem pyIndex_neg {n k : Nat} (h0 : 0 < k) (h : k ≤ n) : pyIndex n (-(k : Int)) = some (n - k) := by
  unfold pyIndex
  rw [if_neg (by omega), if_pos (by omega)]
  congr 1
  omega

theorem replicate_tabulate {α : Type} (n : Nat) (v : α) : List.replicate n v = tabulate n (fun _ => v) := by
  simp [tabulate]

theorem pyGetI_last {α : Type} (n : Nat) (f : Nat → α) :
    pyGetI (tabulate (n + 1) f) (-1) = .ok (f n) := by
  have h := pyIndex_neg (n := n + 1) (k := 1) (by omega) (by omega)
  unfold pyGetI
  rw [length_tabulate]
  have h' : ((-1 : Int)) = -((1 : Nat) : Int) := rfl
  rw [h', h]
  exact pyGet_tabulate f (by omega)

theorem pyGetI_last2 {α : Type} (n : Nat) (f : Nat → α) :
    pyGetI (tabulate (n + 2) f) (-2) = .ok (f n) := by
  have h := pyIndex_neg (n := n + 2) (k := 2) (by omega) (by omega)
  unfold pyGetI
  rw [length_tabulate]
  have h' : ((-2 : Int)) = -((2 : Nat) : Int) := rfl
  rw [h', h]
  exact pyGet_tabulate f (by omega)

/-- A row stored with its first entry at the end. -/
def rotated {α : Type} (n : Nat) (f : Nat → α) : Nat → α := fun j => if j < n then f (j + 1) else f 0

theorem rotated_at {α : Type} (n : Nat) (f : Nat → α) (j : Nat) (h : j ≤ n) :
    rotated n f (if j = 0 then n else j - 1) = f j := by
  unfold rotated
  by_cases hj : j = 0
  · simp [hj]
  · rw [if_neg hj, if_pos (by omega)]
    congr 1
    omega

theorem tabulate_succ {α : Type} (n : Nat) (f : Nat → α) :
    tabulate (n + 1) f = tabulate n f ++ [f n] := by
  simp [tabulate, List.range_succ]

/-- Index `j - 1` of a row stored with its first entry at the end is entry `j`. -/
theorem pyGetI_rotated {α : Type} {n j : Nat} (f g : Nat → α) (h : j ≤ n)
    (hg : g (if j = 0 then n else j - 1) = f j) :
    pyGetI (tabulate (n + 1) g) ((j : Int) - 1) = .ok (f j) := by
  unfold pyGetI
  rw [length_tabulate]
  cases j with
  | zero =>
    have h1 : ((0 : Nat) : Int) - 1 = -((1 : Nat) : Int) := rfl
    rw [h1, pyIndex_neg (by omega) (by omega)]
    simp only [Nat.add_sub_cancel]
    rw [pyGet_tabulate _ (by omega)]
    simpa using hg
  | succ j =>
    have h1 : ((j + 1 : Nat) : Int) - 1 = (j : Int) := by omega
    rw [h1, pyIndex_nat (by omega)]
    simp only
    rw [pyGet_tabulate _ (by omega)]
    simpa using hg

end Verif
