import Mathlib.Algebra.Order.Monoid.Defs

/-!
# Specification of edit distances

`Edit` describes edit scripts that read the first sequence from left to right and write the second
one, every position being touched at most once. `Steps` describes arbitrary sequences of
single-character edits. Neither mentions the model.
-/

namespace Verif
namespace EditSpec

variable {α K : Type}

/-- Costs of the edit operations; `swap` is absent when transpositions are not allowed. -/
structure Costs (K : Type) where
  ins : K
  del : K
  sub : K
  swap : Option K

/-- `Edit c u v x`: an edit script of cost `x` turns `u` into `v`. -/
inductive Edit [AddCommMonoid K] (c : Costs K) : List α → List α → K → Prop where
  | nil : Edit c [] [] 0
  | keep {u v x} (a : α) : Edit c u v x → Edit c (a :: u) (a :: v) x
  | ins {u v x} (b : α) : Edit c u v x → Edit c u (b :: v) (x + c.ins)
  | del {u v x} (a : α) : Edit c u v x → Edit c (a :: u) v (x + c.del)
  | sub {u v x} (a b : α) : a ≠ b → Edit c u v x → Edit c (a :: u) (b :: v) (x + c.sub)
  | swap {u v x t} (a b : α) : c.swap = some t → Edit c u v x →
      Edit c (a :: b :: u) (b :: a :: v) (x + t)

/-- One insertion, deletion or substitution of a single character, anywhere. -/
inductive OneEdit : List α → List α → Prop where
  | ins (p : List α) (b : α) (q : List α) : OneEdit (p ++ q) (p ++ b :: q)
  | del (p : List α) (a : α) (q : List α) : OneEdit (p ++ a :: q) (p ++ q)
  | sub (p : List α) (a b : α) (q : List α) : OneEdit (p ++ a :: q) (p ++ b :: q)

/-- One edit or one transposition of adjacent characters. -/
inductive OneEditT : List α → List α → Prop where
  | edit {u v : List α} : OneEdit u v → OneEditT u v
  | swap (p : List α) (a b : α) (q : List α) : OneEditT (p ++ a :: b :: q) (p ++ b :: a :: q)

/-- `n` steps of a relation. -/
inductive Steps {β : Type} (r : β → β → Prop) : Nat → β → β → Prop where
  | zero (u : β) : Steps r 0 u u
  | step {n : Nat} {u v w : β} : r u v → Steps r n v w → Steps r (n + 1) u w

/-- Unit costs without transposition. -/
def unitCosts : Costs Nat := ⟨1, 1, 1, none⟩

/-- Unit costs with transposition. -/
def unitCostsT : Costs Nat := ⟨1, 1, 1, some 1⟩

end EditSpec
end Verif
