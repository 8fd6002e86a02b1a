import Verif.Auto.Model

/-!
# Model of `intersect` (experiments/automata.py, lines 264–278)

`intersect` is a generator over two objects of which it uses the attributes `start_dfa_state`, `edges`, `next`
and `is_final_dfa_state`. An object that lacks one is modelled by `none`. The strings yielded so far are
collected; the number of rounds of the `while` loop is a parameter. The order in which Python iterates over a
set of characters is given by `ord`.
-/

namespace Verif
namespace Auto

/-- What `intersect` needs to know about an argument (lines 268–277); `truthy` is the truth value of a state
(line 274). -/
structure Duck (σ : Type) where
  start : Option σ
  edges : Option (σ → List ℕ)
  next : Option (σ → ℕ → σ)
  final : Option (σ → Bool)
  truthy : σ → Bool

/-- An `NFA` (lines 24–124) has `start_dfa_state` and `is_final_dfa_state`, but neither `edges` nor `next`. -/
def NFA.duck (pick : Finset State → State) (nfa : NFA) : Duck (Finset State) :=
  ⟨some (nfa.start pick), none, none, some nfa.isFinal, fun S => decide (S ≠ ∅)⟩

/-- A `DFA` (lines 128–220) has none of the four attributes. -/
def DFA.duck (_ : DFA) : Duck (Option ℕ) :=
  ⟨none, none, none, none, fun s => match s with
    | none => false
    | some i => decide (i ≠ 0)⟩

/-- How the generator stands after some rounds. -/
inductive InterEnd where
  | running
  | finished
  | attributeError
deriving DecidableEq

variable {σ τ : Type}

/-- The local variables of lines 268–277 and the strings yielded. -/
structure InterLocals (σ τ : Type) where
  s : List ℕ
  x : σ
  y : τ
  stack : List (List ℕ × σ × τ)
  out : List (List ℕ)

/-- The body of the `for` loop (lines 272–278): `s`, `state1` and `state2` keep their new values for the next
edge. The flag tells whether an attribute is missing. -/
def interEdge (A : Duck σ) (B : Duck τ) (l : InterLocals σ τ) (e : ℕ) : InterLocals σ τ × Bool :=
  match A.next, B.next with
  | some na, some nb =>
    let x := na l.x e
    let y := nb l.y e
    if A.truthy x && B.truthy y then
      let s := l.s ++ [e]
      let l' := ⟨s, x, y, (s, x, y) :: l.stack, l.out⟩
      match A.final with
      | none => (l', true)
      | some fa =>
        if fa x then
          match B.final with
          | none => (l', true)
          | some fb => if fb y then ({ l' with out := l.out ++ [s] }, false) else (l', false)
        else (l', false)
    else ({ l with x, y }, false)
  | _, _ => (l, true)

/-- The `for` loop (lines 271–278). -/
def interFor (A : Duck σ) (B : Duck τ) : List ℕ → InterLocals σ τ → InterLocals σ τ × Bool
  | [], l => (l, false)
  | e :: es, l =>
    match interEdge A B l e with
    | (l', true) => (l', true)
    | (l', false) => interFor A B es l'

/-- The `while` loop (lines 269–278), at most so many rounds. -/
def interLoop (ord : Finset ℕ → List ℕ) (A : Duck σ) (B : Duck τ) :
    ℕ → List (List ℕ × σ × τ) → List (List ℕ) × InterEnd
  | _, [] => ([], .finished)
  | 0, _ :: _ => ([], .running)
  | n + 1, (s, x, y) :: rest =>
    match A.edges, B.edges with
    | some ea, some eb =>
      match interFor A B (ord ((ea x).toFinset ∩ (eb y).toFinset)) ⟨s, x, y, rest, []⟩ with
      | (l, true) => (l.out, .attributeError)
      | (l, false) =>
        let r := interLoop ord A B n l.stack
        (l.out ++ r.1, r.2)
    | _, _ => ([], .attributeError)

/-- `intersect(dfa1, dfa2)` (lines 264–278): the strings yielded within so many rounds. -/
def intersect (ord : Finset ℕ → List ℕ) (A : Duck σ) (B : Duck τ) (n : ℕ) :
    List (List ℕ) × InterEnd :=
  match A.start, B.start with
  | some a, some b => interLoop ord A B n [([], a, b)]
  | _, _ => ([], .attributeError)

end Auto
end Verif
