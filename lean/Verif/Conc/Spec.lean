import Verif.Conc.Model

/-!
# Vocabulary for statements about threads
-/

namespace Verif
namespace Conc

/-- The word given to `add`. -/
def Call.word : Call → PyVal
  | .add _ v => v
  | .discard _ v => v
  | .find _ q _ _ => q

/-- The call enumerates every element of a set exactly once. -/
def Call.Fair : Call → Prop
  | .add ord _ => ∀ l, (ord l).Perm l
  | .discard ord _ => ∀ l, (ord l).Perm l
  | .find ord _ _ _ => ∀ l, (ord l).Perm l

/-- The call removes words. -/
def Call.removes : Call → Bool
  | .discard _ _ => true
  | _ => false

/-- The call is `add`. -/
def Call.isAdd : Call → Bool
  | .add _ _ => true
  | _ => false

/-- A call of `add` has begun and not returned. -/
def Pc.adding : Pc → Bool
  | .add .enter => false
  | .add (.done _) => false
  | .add _ => true
  | _ => false

/-- A call of `add` has returned. -/
def Pc.added : Pc → Bool
  | .add (.done _) => true
  | _ => false

variable (cf : List Char → List Char) (un : Normalizer)

/-- Calls of `add` do not overlap (the callers hold a lock of their own, say): a thread makes a step of
`add` only while no other thread is in the middle of one. -/
def Exclusive (C : ℕ → Call) : Sys → List ℕ → Prop
  | _, [] => True
  | s, i :: sched =>
    ((C i).isAdd = true → ∀ j, j ≠ i → (s.pc j).adding = false) ∧
      Exclusive C (s.step cf un C i) sched

/-- The threads that begin a call of `add`, in the order in which they do. -/
def starts (C : ℕ → Call) : Sys → List ℕ → List ℕ
  | _, [] => []
  | s, i :: sched =>
    (if s.pc i = .add .enter then [i] else []) ++ starts C (s.step cf un C i) sched

end Conc
end Verif
