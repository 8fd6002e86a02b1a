import Verif.Auto.Model
import Mathlib.Data.Set.Insert

/-!
# Specification of finite automata with `EPSILON` and `ANY` transitions

An automaton is given by the list of its transitions. Nothing here mentions the model except the type
of labels.
-/

namespace Verif
namespace AutoSpec

open Auto (State Sym)

/-- `Path ts s w t`: reading `w` from state `s` one can arrive at `t`. -/
inductive Path (ts : List (State × Sym × State)) : State → List ℕ → State → Prop where
  | nil (s) : Path ts s [] s
  | eps {s w t u} : Path ts s w t → (t, Sym.eps, u) ∈ ts → Path ts s w u
  | any {s w t u} (c : ℕ) : Path ts s w t → (t, Sym.any, u) ∈ ts → Path ts s (w ++ [c]) u
  | chr {s w t u} (c : ℕ) : Path ts s w t → (t, Sym.chr c, u) ∈ ts → Path ts s (w ++ [c]) u

/-- The states in which the automaton can be after reading `w`. -/
def after (ts : List (State × Sym × State)) (w : List ℕ) : Set State := {t | Path ts (0, 0) w t}

/-- A word is accepted when a final state can be reached by reading it. -/
def Accepts (ts : List (State × Sym × State)) (fs : List State) (w : List ℕ) : Prop :=
  ∃ t ∈ fs, Path ts (0, 0) w t

end AutoSpec
end Verif
