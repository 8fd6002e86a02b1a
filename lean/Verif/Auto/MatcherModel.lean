import Verif.Auto.Model

/-!
# A `Matcher` as an object (experiments/automata.py:281–295)

`Verif.Auto.Model` models one search with a new `Matcher`. Here the object keeps its state, as in the
code: `prev` and `probes` are set by `__init__` only, so a second search with the same object starts
where the first one stopped.
-/

namespace Verif
namespace Auto

/-- A `Matcher` (lines 282–286). -/
structure Matcher where
  entries : List (List ℕ)
  probes : ℕ
  prev : ℕ
  deriving DecidableEq, Repr

/-- `Matcher(entries)` (lines 282–286). -/
def Matcher.new (entries : List (List ℕ)) : Matcher where
  entries := entries
  probes := 0
  prev := 0

/-- `Matcher.__call__(word)` (lines 288–295): the object afterwards and the answer. -/
def Matcher.call (m : Matcher) (word : List ℕ) : Except PyErr (Matcher × Option (List ℕ)) :=
  match bisectLeft m.entries word m.prev with
  | .error e => .error e
  | .ok pos => .ok ({ m with probes := m.probes + 1, prev := pos }, m.entries[pos]?)

/-- The loop of `find_all_matches` (lines 254–261) with a `Matcher` as `lookup_func`: the object
afterwards and the yielded words. `rounds` bounds the number of iterations, `fuel` the work of
`next_valid_string`; `none` when one of them is not enough. -/
def searchLoop (d : DFA) (fuel : ℕ) :
    ℕ → Matcher → Option (List ℕ) → Option (Except PyErr (Matcher × List (List ℕ)))
  | 0, _, _ => none
  | rounds + 1, m, word =>
    match word with
    | none => some (.ok (m, []))
    | some [] => some (.ok (m, []))
    | some (c :: cs) =>
      match m.call (c :: cs) with
      | .error e => some (.error e)
      | .ok (m, none) => some (.ok (m, []))
      | .ok (m, some []) => some (.ok (m, []))
      | .ok (m, some (a :: as)) =>
        let hit := (c :: cs) = (a :: as)
        match d.nextValidString fuel (if hit then (a :: as) ++ [0] else a :: as) with
        | none => none
        | some (.error e) => some (.error e)
        | some (.ok word) =>
          match searchLoop d fuel rounds m word with
          | none => none
          | some (.error e) => some (.error e)
          | some (.ok (m, out)) => some (.ok (m, if hit then (c :: cs) :: out else out))

/-- `list(find_all_matches(word, k, m))` (lines 241–261) for a `Matcher` `m`: the object afterwards
and the list. -/
def Matcher.findAll (pick : Finset State → State) (order : Finset Sym → List Sym) (fuel : ℕ)
    (word : List ℕ) (k : ℤ) (m : Matcher) : Option (Except PyErr (Matcher × List (List ℕ))) :=
  let lev := (levenshteinAutomaton word k).toDFA pick order
  match lev.nextValidString fuel [0] with
  | none => none
  | some (.error e) => some (.error e)
  | some (.ok word) => searchLoop lev fuel fuel m word

/-- `[list(find_all_matches(word, k, m)) for word, k in queries]`: searches one after the other with
the same `Matcher`. -/
def Matcher.findEach (pick : Finset State → State) (order : Finset Sym → List Sym) (fuel : ℕ) :
    List (List ℕ × ℤ) → Matcher → Option (Except PyErr (Matcher × List (List (List ℕ))))
  | [], m => some (.ok (m, []))
  | (word, k) :: queries, m =>
    match m.findAll pick order fuel word k with
    | none => none
    | some (.error e) => some (.error e)
    | some (.ok (m, out)) =>
      match Matcher.findEach pick order fuel queries m with
      | none => none
      | some (.error e) => some (.error e)
      | some (.ok (m, outs)) => some (.ok (m, out :: outs))

end Auto
end Verif
