import Verif.Conc.Spec

/-!
# Vocabulary for statements about threads that add and discard words
-/

namespace Verif
namespace Conc

/-- The call changes the set. -/
def Call.isWriter : Call → Bool
  | .add _ _ => true
  | .discard _ _ => true
  | .find _ _ _ _ => false

/-- The call as one that is made alone. -/
def Call.op : Call → WSOp
  | .add _ v => .add v
  | .discard _ v => .discard v
  | .find _ q k ms => .findSimilar q k ms

/-- A call of `add` or `discard` is about to begin. -/
def Pc.fresh : Pc → Bool
  | .add .enter => true
  | .discard .enter => true
  | _ => false

/-- What a call of `add` or `discard` has returned or raised. -/
def Pc.outcome : Pc → Option (Except PyErr Unit)
  | .add (.done r) => some r
  | .discard (.done r) => some r
  | _ => none

/-- A call of `add` or `discard` has begun and not returned. -/
def Pc.writing : Pc → Bool
  | .find _ => false
  | p => !p.fresh && p.outcome.isNone

variable (cf : List Char → List Char) (un : Normalizer)

/-- Calls of `add` and `discard` do not overlap one another: a thread makes a step of such a call only
while no other thread is in the middle of one. -/
def ExclusiveW (C : ℕ → Call) : Sys → List ℕ → Prop
  | _, [] => True
  | s, i :: sched =>
    ((C i).isWriter = true → ∀ j, j ≠ i → (s.pc j).writing = false) ∧
      ExclusiveW C (s.step cf un C i) sched

/-- The threads that begin a call of `add` or `discard`, in the order in which they do. -/
def wstarts (C : ℕ → Call) : Sys → List ℕ → List ℕ
  | _, [] => []
  | s, i :: sched =>
    (if (s.pc i).fresh = true then [i] else []) ++ wstarts C (s.step cf un C i) sched

/-- The state of the set at some moment of `during`, if the writers make their calls one after another: the
calls that have been made by then are the first few, among them all that had returned after `before`. -/
def Moment (C : ℕ → Call) (s : Sys) (before during a : List ℕ) : Prop :=
  a <+: wstarts cf un C s (before ++ during) ∧
    ∀ j ∈ wstarts cf un C s before, ((s.run cf un C before).pc j).outcome.isSome = true → j ∈ a

/-- `find_similar`, called alone for enough words, finds this word with this score. -/
def Finds (st : WS) (q : PyVal) (ms : MinSim) (p : List Char × ℚ) : Prop :=
  ∃ (k : ℤ) (l : List (List Char × ℚ)), st.findSimilar cf un q (.int k) ms = .ok l ∧ p ∈ l

end Conc
end Verif
