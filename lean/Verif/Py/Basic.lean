/-!
# Python run-time conventions shared by all models

Exceptions raised by the modelled code are values of `PyErr`; a modelled function that
may raise returns `Except PyErr α`.
-/

namespace Verif

/-- Exceptions that the modelled code in /repo can raise. -/
inductive PyErr where
  | typeError
  | valueError
  | indexError
  | keyError
  | zeroDivisionError
  | assertionError
  | recursionError
deriving DecidableEq, Repr

/-- `xs[i]` for a non-negative index `i` (Python list indexing, used throughout /repo). -/
def pyGet {α : Type} (xs : List α) (i : Nat) : Except PyErr α :=
  match xs[i]? with
  | some v => .ok v
  | none => .error .indexError

/-- `xs[i] = v` for a non-negative index `i` (Python list item assignment). -/
def pySet {α : Type} (xs : List α) (i : Nat) (v : α) : Except PyErr (List α) :=
  if i < xs.length then .ok (xs.set i v) else .error .indexError

theorem pyGet_ok {α : Type} {xs : List α} {i : Nat} (h : i < xs.length) :
    pyGet xs i = .ok xs[i] := by
  simp [pyGet, h]

theorem pyGet_ok' {α : Type} {xs : List α} {i : Nat} {v : α} (h : xs[i]? = some v) :
    pyGet xs i = .ok v := by
  simp [pyGet, h]

theorem pySet_ok {α : Type} {xs : List α} {i : Nat} {v : α} (h : i < xs.length) :
    pySet xs i v = .ok (xs.set i v) := by
  simp [pySet, h]

end Verif
