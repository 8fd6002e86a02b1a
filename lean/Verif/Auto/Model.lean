import Verif.Py.Basic
import Verif.Py.Dict
import Mathlib.Data.Finset.Union
import Mathlib.Data.Finset.Card
import Mathlib.Order.Lattice.Nat
import Mathlib.Data.List.Lex

/-!
# Model of the Levenshtein automaton (experiments/automata.py, lines 20–295)

* Characters are code points (natural numbers), strings are lists of code points: Python strings may
  contain lone surrogates, which `chr(ord(c) + 1)` can produce. `chr` raises `ValueError` from
  `0x110000` on.
* Python sets are finite sets. The element taken by `frontier.pop()` in `_expand_epsilon` is chosen
  by the parameter `pick`, the order in which `to_dfa` iterates over a set of inputs is given by the
  parameter `order`; the theorems hold for all choices.
* The loops of `_expand_epsilon` and `to_dfa` get a number of rounds that is proved to be
  sufficient. The loop of `next_valid_string` need not terminate for an arbitrary automaton, so the
  number of rounds is a parameter and the value `none` means "still running".
* The unused function `intersect` (lines 264–278) is modelled in `Verif.Auto.InterModel`.
-/

namespace Verif
namespace Auto

/-- `State` (line 20): position and distance. -/
abbrev State := ℕ × ℕ

/-- Labels of transitions: `NFA.EPSILON`, `NFA.ANY` (lines 33–34) or a character. -/
inductive Sym where
  | eps
  | any
  | chr (c : ℕ)
deriving DecidableEq

/-! ### `NFA` -/

/-- `NFA` (lines 24–38). -/
structure NFA where
  transitions : Dict State (Dict Sym (Finset State))
  finalStates : Finset State

/-- `NFA()` (lines 36–38). -/
def NFA.new : NFA := ⟨[], ∅⟩

/-- `add_transition(src, input_char, dest)` (lines 47–52). -/
def NFA.addTransition (nfa : NFA) (src : State) (c : Sym) (dest : State) : NFA :=
  let d := (Dict.get? nfa.transitions src).getD []
  let s := (Dict.get? d c).getD ∅
  { nfa with transitions := Dict.set nfa.transitions src (Dict.set d c (insert dest s)) }

/-- `add_final_state(state)` (lines 54–55). -/
def NFA.addFinalState (nfa : NFA) (s : State) : NFA :=
  { nfa with finalStates := insert s nfa.finalStates }

/-- `is_final_dfa_state(dfa_state)` (lines 57–58). -/
def NFA.isFinal (nfa : NFA) (S : Finset State) : Bool := !decide (Disjoint nfa.finalStates S)

/-- `self.transitions.get(state, dict()).get(input_char, set())` (lines 68, 79, 80). -/
def NFA.delta (nfa : NFA) (s : State) (c : Sym) : Finset State :=
  (Dict.get? ((Dict.get? nfa.transitions s).getD []) c).getD ∅

/-- All states that are the destination of some transition; used only to bound loops. -/
def NFA.dests (nfa : NFA) : Finset State :=
  (nfa.transitions.flatMap (fun p => p.2.map Prod.snd)).foldr (· ∪ ·) ∅

/-- The loop of `_expand_epsilon` (lines 65–70). -/
def NFA.expandLoop (pick : Finset State → State) (nfa : NFA) :
    ℕ → Finset State → Finset State → Finset State
  | 0, _, states => states
  | fuel + 1, frontier, states =>
    if frontier = ∅ then states
    else
      let state := pick frontier
      let new := nfa.delta state .eps \ states
      NFA.expandLoop pick nfa fuel (frontier.erase state ∪ new) (states ∪ new)

/-- `_expand_epsilon(states)` (lines 60–71). -/
def NFA.expand (pick : Finset State → State) (nfa : NFA) (states : Finset State) : Finset State :=
  NFA.expandLoop pick nfa (states.card + nfa.dests.card + 1) states states

/-- `start_dfa_state` (lines 40–45). -/
def NFA.start (pick : Finset State → State) (nfa : NFA) : Finset State := nfa.expand pick {(0, 0)}

/-- `next_dfa_state(dfa_state, input_char)` (lines 73–82). -/
def NFA.next (pick : Finset State → State) (nfa : NFA) (S : Finset State) (c : Sym) :
    Finset State :=
  nfa.expand pick (S.biUnion (fun s => nfa.delta s c ∪ nfa.delta s .any))

/-- `get_inputs(dfa_state)` (lines 84–92). -/
def NFA.inputs (nfa : NFA) (S : Finset State) : Finset Sym :=
  S.biUnion (fun s => (Dict.keys ((Dict.get? nfa.transitions s).getD [])).toFinset)

/-! ### `DFA` -/

/-- `DFA` (lines 128–140). -/
structure DFA where
  startState : ℕ
  transitions : Dict ℕ (Dict ℕ ℕ)
  defaults : Dict ℕ ℕ
  finalStates : Finset ℕ

/-- `DFA(start_state)` (lines 134–140). -/
def DFA.new (start : ℕ) : DFA := ⟨start, [], [], ∅⟩

/-- `add_transition(src, input_char, dest)` (lines 142–147). -/
def DFA.addTransition (d : DFA) (src c dest : ℕ) : DFA :=
  { d with transitions :=
      Dict.set d.transitions src (Dict.set ((Dict.get? d.transitions src).getD []) c dest) }

/-- `set_default_transition(src, dest)` (lines 149–153). -/
def DFA.setDefault (d : DFA) (src dest : ℕ) : DFA :=
  { d with defaults := Dict.set d.defaults src dest }

/-- `add_final_state(state)` (lines 155–158). -/
def DFA.addFinalState (d : DFA) (s : ℕ) : DFA :=
  { d with finalStates := insert s d.finalStates }

/-- `is_final(state)` (lines 160–163); `None` is never in the set. -/
def DFA.isFinal (d : DFA) : Option ℕ → Bool
  | none => false
  | some s => decide (s ∈ d.finalStates)

/-- `next_state(src, input_char)` (lines 165–170). -/
def DFA.nextState (d : DFA) (src c : ℕ) : Option ℕ :=
  match Dict.get? ((Dict.get? d.transitions src).getD []) c with
  | some s => some s
  | none => Dict.get? d.defaults src

/-- `dfa_node_ids[state]` (line 105): a `defaultdict` that numbers the keys as they appear. -/
def nodeId (ids : Dict (Finset State) ℕ) (S : Finset State) : Dict (Finset State) ℕ × ℕ :=
  match Dict.get? ids S with
  | some i => (ids, i)
  | none => (Dict.set ids S ids.length, ids.length)

/-- Local variables of `to_dfa`. -/
structure Build where
  ids : Dict (Finset State) ℕ
  dfa : DFA
  frontier : List (Finset State)

/-- The branch for a state that is not numbered yet (lines 115–118). -/
def Build.discover (nfa : NFA) (b : Build) (S : Finset State) : Build :=
  if Dict.has b.ids S then b
  else
    let b := { b with frontier := S :: b.frontier }
    if nfa.isFinal S then
      let r := nodeId b.ids S
      { b with ids := r.1, dfa := b.dfa.addFinalState r.2 }
    else b

/-- Body of the loop over the inputs (lines 114–123). -/
def Build.input (pick : Finset State → State) (nfa : NFA) (cur : Finset State) (b : Build)
    (c : Sym) : Build :=
  let S := nfa.next pick cur c
  let b := b.discover nfa S
  let r1 := nodeId b.ids cur
  let r2 := nodeId r1.1 S
  match c with
  | .chr c => { b with ids := r2.1, dfa := b.dfa.addTransition r1.2 c r2.2 }
  | _ => { b with ids := r2.1, dfa := b.dfa.setDefault r1.2 r2.2 }

/-- The loop `while frontier` (lines 109–123). -/
def NFA.buildLoop (pick : Finset State → State) (order : Finset Sym → List Sym) (nfa : NFA) :
    ℕ → Build → Build
  | 0, b => b
  | fuel + 1, b =>
    match b.frontier with
    | [] => b
    | cur :: rest =>
      NFA.buildLoop pick order nfa fuel
        ((order (nfa.inputs cur \ {Sym.eps})).foldl (Build.input pick nfa cur)
          { b with frontier := rest })

/-- `to_dfa()` (lines 94–125). Every set of destinations is handled at most once. -/
def NFA.toDFA (pick : Finset State → State) (order : Finset Sym → List Sym) (nfa : NFA) : DFA :=
  let r := nodeId [] (nfa.start pick)
  (NFA.buildLoop pick order nfa (2 ^ (nfa.dests.card + 1) + 1)
    ⟨r.1, DFA.new r.2, [nfa.start pick]⟩).dfa

/-- `chr(n)`. -/
def pyChr (n : ℕ) : Except PyErr ℕ := if n < 0x110000 then .ok n else .error .valueError

/-- `u'\0' if transition is None else chr(ord(transition) + 1)` (line 205). -/
def nextAllowed : Option ℕ → Except PyErr ℕ
  | none => .ok 0
  | some c => pyChr (c + 1)

/-- `find_next_edge(state, transition)` (lines 204–219). -/
def DFA.findNextEdge (d : DFA) (state : Option ℕ) (t : Option ℕ) : Except PyErr (Option ℕ) :=
  match nextAllowed t with
  | .error e => .error e
  | .ok n =>
    let st := (state.bind (Dict.get? d.transitions)).getD []
    if Dict.has st n ∨ (state.bind (Dict.get? d.defaults)).isSome then .ok (some n)
    else .ok ((Dict.keys st).filter (fun l => n ≤ l)).min?

/-- An entry of the stack of `next_valid_string`: path, state, character. -/
abbrev Entry := List ℕ × Option ℕ × Option ℕ

/-- "Evaluate the DFA as far as possible" (lines 178–187): `rest` is what remains of the input from
index `idx` on. The result is the state and the stack, its top first. -/
def DFA.eval (d : DFA) (input : List ℕ) :
    List ℕ → ℕ → ℕ → List Entry → Option ℕ × List Entry
  | [], idx, state, stack => (some state, (input.take idx, some state, none) :: stack)
  | c :: cs, idx, state, stack =>
    match d.nextState state c with
    | none => (none, (input.take idx, some state, some c) :: stack)
    | some 0 => (some 0, (input.take idx, some state, some c) :: stack)
    | some (s + 1) => DFA.eval d input cs (idx + 1) (s + 1) ((input.take idx, some state, some c) :: stack)

/-- `while stack: …` (lines 193–202); `none` when `fuel` rounds are not enough. -/
def DFA.search (d : DFA) : ℕ → List Entry → Option (Except PyErr (Option (List ℕ)))
  | 0, _ => none
  | _ + 1, [] => some (.ok none)
  | fuel + 1, (path, state, char) :: stack =>
    match d.findNextEdge state char with
    | .error e => some (.error e)
    | .ok none => DFA.search d fuel stack
    | .ok (some c) =>
      let path := path ++ [c]
      let state := state.bind (fun s => d.nextState s c)
      if d.isFinal state then some (.ok (some path))
      else DFA.search d fuel ((path, state, none) :: stack)

/-- `next_valid_string(input_str)` (lines 172–202). -/
def DFA.nextValidString (d : DFA) (fuel : ℕ) (input : List ℕ) :
    Option (Except PyErr (Option (List ℕ))) :=
  let r := d.eval input input 0 d.startState []
  if d.isFinal r.1 then some (.ok (some input))
  else d.search fuel r.2

/-! ### The automaton of a word -/

/-- Body of `for dist in range(k + 1)` (lines 224–233). -/
def levStep (k : ℤ) (index c : ℕ) (nfa : NFA) (dist : ℕ) : NFA :=
  let nfa := nfa.addTransition (index, dist) (.chr c) (index + 1, dist)
  if (dist : ℤ) < k then
    let nfa := nfa.addTransition (index, dist) .any (index, dist + 1)
    let nfa := nfa.addTransition (index, dist) .eps (index + 1, dist + 1)
    nfa.addTransition (index, dist) .any (index + 1, dist + 1)
  else nfa

/-- Body of `for dist in range(k + 1)` (lines 234–237). -/
def levLast (k : ℤ) (n : ℕ) (nfa : NFA) (dist : ℕ) : NFA :=
  let nfa := if (dist : ℤ) < k then nfa.addTransition (n, dist) .any (n, dist + 1) else nfa
  nfa.addFinalState (n, dist)

/-- `levenshtein_automaton(word, k)` (lines 221–238). -/
def levenshteinAutomaton (word : List ℕ) (k : ℤ) : NFA :=
  let dists := List.range (k + 1).toNat
  let nfa := word.zipIdx.foldl (fun nfa p => dists.foldl (levStep k p.2 p.1) nfa) NFA.new
  dists.foldl (levLast k word.length) nfa

/-! ### `find_all_matches` and `Matcher` -/

/-- The loop of `bisect.bisect_left(a, x, lo)`; every round shrinks the interval, so `len(a)` rounds
suffice. -/
def bisectLeftLoop (a : List (List ℕ)) (x : List ℕ) : ℕ → ℕ → ℕ → Except PyErr ℕ
  | 0, lo, _ => .ok lo
  | fuel + 1, lo, hi =>
    if lo < hi then
      let mid := (lo + hi) / 2
      match pyGet a mid with
      | .error e => .error e
      | .ok y => if y < x then bisectLeftLoop a x fuel (mid + 1) hi else bisectLeftLoop a x fuel lo mid
    else .ok lo

/-- `bisect.bisect_left(a, x, lo)`. -/
def bisectLeft (a : List (List ℕ)) (x : List ℕ) (lo : ℕ) : Except PyErr ℕ :=
  bisectLeftLoop a x a.length lo a.length

/-- `Matcher.__call__(word)` (lines 288–295): the new `prev` and the answer; `probes` is not
modelled. -/
def matcherCall (entries : List (List ℕ)) (prev : ℕ) (word : List ℕ) :
    Except PyErr (ℕ × Option (List ℕ)) :=
  match bisectLeft entries word prev with
  | .error e => .error e
  | .ok pos => .ok (pos, entries[pos]?)

/-- The loop of `find_all_matches` (lines 254–261) with a `Matcher` as `lookup_func`: the yielded
words. `rounds` bounds the number of iterations, `fuel` the work of `next_valid_string`; `none` when
one of them is not enough. -/
def matchLoop (d : DFA) (fuel : ℕ) (entries : List (List ℕ)) :
    ℕ → ℕ → Option (List ℕ) → Option (Except PyErr (List (List ℕ)))
  | 0, _, _ => none
  | rounds + 1, prev, m =>
    match m with
    | none => some (.ok [])
    | some [] => some (.ok [])
    | some (c :: cs) =>
      match matcherCall entries prev (c :: cs) with
      | .error e => some (.error e)
      | .ok (_, none) => some (.ok [])
      | .ok (_, some []) => some (.ok [])
      | .ok (pos, some (a :: as)) =>
        let hit := (c :: cs) = (a :: as)
        match d.nextValidString fuel (if hit then (a :: as) ++ [0] else a :: as) with
        | none => none
        | some (.error e) => some (.error e)
        | some (.ok m) =>
          match matchLoop d fuel entries rounds pos m with
          | none => none
          | some (.error e) => some (.error e)
          | some (.ok out) => some (.ok (if hit then (c :: cs) :: out else out))

/-- `list(find_all_matches(word, k, Matcher(entries)))` (lines 241–261). -/
def findAllMatches (pick : Finset State → State) (order : Finset Sym → List Sym) (fuel : ℕ)
    (word : List ℕ) (k : ℤ) (entries : List (List ℕ)) : Option (Except PyErr (List (List ℕ))) :=
  let lev := (levenshteinAutomaton word k).toDFA pick order
  match lev.nextValidString fuel [0] with
  | none => none
  | some (.error e) => some (.error e)
  | some (.ok m) => matchLoop lev fuel entries fuel 0 m

end Auto
end Verif
