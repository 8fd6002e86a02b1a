import Verif.Conc.ListModel

/-!
# Vocabulary for statements about threads that call `add_word`
-/

namespace Verif
namespace ListConc

/-- The orders of enumeration are orders of the same elements. -/
def Call.Fair (c : Call) : Prop := (∀ l, (c.grams l).Perm l) ∧ ∀ l, (c.sizes l).Perm l

/-- The call has begun and not returned. -/
def Pc.active : Pc → Bool
  | .enter => false
  | .done _ => false
  | _ => true

/-- What the call has returned or raised. -/
def Pc.outcome : Pc → Option (Except PyErr Unit)
  | .done r => some r
  | _ => none

/-- The folded word of a call. -/
def target (cf : List Char → List Char) (caseInsensitive : Bool) : PyVal → Option (List Char)
  | .str w => some (if caseInsensitive then cf w else w)
  | _ => none

/-- No two calls in progress add the same word. -/
def Apart (cf : List Char → List Char) (C : ℕ → Call) (s : Sys) : Prop :=
  ∀ i j, i ≠ j → (s.pc i).active = true → (s.pc j).active = true →
    target cf s.mem.caseInsensitive (C i).word ≠ target cf s.mem.caseInsensitive (C j).word

/-- At no time do two calls in progress add the same word. -/
def AlwaysApart (cf : List Char → List Char) (C : ℕ → Call) (s : Sys) (sched : List ℕ) : Prop :=
  ∀ l, l <+: sched → Apart cf C (s.run cf C l)

/-- Two answers of `lookup` that differ at most in the choice and order of words of equal score: the same
exception, or the same scores. -/
def SameScores {S : Type} (a b : Except PyErr (List (List Char × (S ×ₗ ℚ)))) : Prop :=
  (∀ e, a = .error e ↔ b = .error e) ∧
  ∀ l l', a = .ok l → b = .ok l' → l.map (fun r => (ofLex r.2).1) = l'.map (fun r => (ofLex r.2).1)

end ListConc
end Verif
