import Mathlib.Data.List.Lex
import Mathlib.Data.Set.Insert

/-!
# Specification of the word graph

Nothing here mentions the model.
-/

namespace Verif
namespace DawgSpec

variable {α δ : Type} [LinearOrder α]

/-- The calls of `insert` that are accepted: those whose word is greater than the last accepted word
(the empty word at the start). -/
def kept (ps : List (List α × δ)) : List (List α × δ) :=
  ps.foldl (fun l p => if ((l.getLast?.map Prod.fst).getD []) < p.1 then l ++ [p] else l) []

/-- What can follow the prefix `p` in the language `ws`. -/
def residual (ws : List (List α)) (p : List α) : Set (List α) := {v | p ++ v ∈ ws}

/-- A deterministic automaton with partial transitions reading a word. -/
def read {Q : Type} (step : Q → α → Option Q) : Q → List α → Option Q
  | q, [] => some q
  | q, c :: w => (step q c).bind (fun q' => read step q' w)

end DawgSpec
end Verif
