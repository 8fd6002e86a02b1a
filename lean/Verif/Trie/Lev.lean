import Verif.Trie.Model
import Verif.Py.Index
import Mathlib.Algebra.Order.Ring.Rat

/-!
# Model of `Trie.levenshtein_lookup` and `Trie.damerau_levenshtein_lookup`
(experiments/find_replace_trie.py, lines 607–776)

* A string is the list of its characters; with the character tokenizer these are the tokens.
  Whether the tokenizer passes the test of lines 623 and 706 is the parameter `charTok`.
* Costs and the distance bound are rationals.
* A generator is modelled by the list of what it yields.
-/

namespace Verif
namespace Trie

variable {κ τ ν : Type} [DecidableEq τ]

/-- `min(row)`: `ValueError` on an empty list. -/
def pyMin (row : List ℚ) : Except PyErr ℚ :=
  match row.min? with
  | none => .error .valueError
  | some x => .ok x

/-- The entry computed in lines 650–663 for the character `ch` at `idx` of `word`. -/
def levCell (ins del sub swap : ℚ) (word path : List τ) (table : List (List ℚ)) (key : τ)
    (ch : τ) (idx : Nat) (row : List ℚ) : Except PyErr ℚ := do
  let last ← pyGetI table (-1)
  if key = ch then pyGet last idx
  else
    let insertions := (← pyGet last (idx + 1)) + ins
    let deletions := (← pyGet row idx) + del
    let substitutions := (← pyGet last idx) + sub
    let m := min (min insertions deletions) substitutions
    if path ≠ [] ∧ idx ≠ 0 ∧ word[idx - 1]? = some key ∧ path.getLast? = some ch then
      let transpositions := (← pyGet (← pyGetI table (-2)) (idx - 1)) + swap
      pure (min m transpositions)
    else pure m

/-- The loop of `_levenshtein_iter` (lines 648–663) over the rest of `_word`. -/
def levCells (ins del sub swap : ℚ) (word path : List τ) (table : List (List ℚ)) (key : τ) :
    List τ → Nat → List ℚ → Except PyErr (List ℚ)
  | [], _, row => .ok row
  | ch :: cs, idx, row => do
    let x ← levCell ins del sub swap word path table key ch idx row
    let row ← pySet row (idx + 1) x
    levCells ins del sub swap word path table key cs (idx + 1) row

/-- `_levenshtein_iter(key)` (lines 639–664). -/
def levRow (ins del sub swap : ℚ) (word path : List τ) (table : List (List ℚ)) (key : τ) :
    Except PyErr (List ℚ) := do
  let row ← pySet (List.replicate (word.length + 1) 0) 0 (table.length * ins)
  levCells ins del sub swap word path table key word 0 row

/-- The entry computed in lines 733–746: the first column is at index `-1`. -/
def damCell (ins del sub swap : ℚ) (word path : List τ) (table : List (List ℚ)) (key : τ)
    (ch : τ) (idx : Nat) (row : List ℚ) : Except PyErr ℚ := do
  let last ← pyGetI table (-1)
  if key = ch then pyGetI last ((idx : Int) - 1)
  else
    let insertions := (← pyGet last idx) + ins
    let deletions := (← pyGetI row ((idx : Int) - 1)) + del
    let substitutions := (← pyGetI last ((idx : Int) - 1)) + sub
    let m := min (min insertions deletions) substitutions
    if path ≠ [] ∧ idx ≠ 0 ∧ word[idx - 1]? = some key ∧ path.getLast? = some ch then
      let transpositions := (← pyGetI (← pyGetI table (-2)) ((idx : Int) - 2)) + swap
      pure (min m transpositions)
    else pure m

/-- The loop of `_damerau_levenshtein_iter` (lines 732–746). -/
def damCells (ins del sub swap : ℚ) (word path : List τ) (table : List (List ℚ)) (key : τ) :
    List τ → Nat → List ℚ → Except PyErr (List ℚ)
  | [], _, row => .ok row
  | ch :: cs, idx, row => do
    let x ← damCell ins del sub swap word path table key ch idx row
    let row ← pySet row idx x
    damCells ins del sub swap word path table key cs (idx + 1) row

/-- `_damerau_levenshtein_iter(key)` (lines 724–747). -/
def damRow (ins del sub swap : ℚ) (word path : List τ) (table : List (List ℚ)) (key : τ) :
    Except PyErr (List ℚ) := do
  let last ← pyGetI table (-1)
  let first ← pyGetI last (-1)
  let row ← pySetI (List.replicate (word.length + 1) 0) (-1) (first + ins)
  damCells ins del sub swap word path table key word 0 row

/-- The loop `while _stack` (lines 666–690 and 749–774), which is the same in both functions except
for the row function `iter` and the index `endIdx` of the last column. Frames are as in
`itemsLoop`; `keys.pop(-1)` takes the first child of a frame. The yielded keys are given as token
paths. -/
def lookupLoop (iter : List τ → List (List ℚ) → τ → Except PyErr (List ℚ)) (endIdx : Int) (k : ℚ)
    (path : List τ) (table : List (List ℚ)) (stack : List (List (τ × Node τ ν))) :
    Except PyErr (List (List τ)) :=
  match stack with
  | [] => .ok []
  | [] :: stack =>
    if path ≠ [] then lookupLoop iter endIdx k path.dropLast table.dropLast stack
    else if table.length = 1 ∧ stack.length = 0 then .ok []
    else .error .assertionError
  | ((key, c) :: rest) :: stack =>
    match iter path table key with
    | .error e => .error e
    | .ok row =>
      match pyMin row with
      | .error e => .error e
      | .ok m =>
        if m ≤ k then
          match pyGetI row endIdx with
          | .error e => .error e
          | .ok last =>
            match lookupLoop iter endIdx k (path ++ [key]) (table ++ [row])
              (c.kids.reverse :: rest :: stack) with
            | .error e => .error e
            | .ok out =>
              .ok ((if last ≤ k ∧ c.val.isSome then [path ++ [key]] else []) ++ out)
        else lookupLoop iter endIdx k path table (rest :: stack)
termination_by (stack.map frameWeight).sum
decreasing_by
  · simp [frameWeight]
  · have h := Node.weight_eq c
    simp only [List.map_cons, List.sum_cons, frameWeight_reverse]
    simp only [frameWeight, List.map_cons, List.sum_cons] at *
    omega
  · have h := Node.weight_eq c
    simp only [List.map_cons, List.sum_cons]
    simp only [frameWeight, List.map_cons, List.sum_cons] at *
    omega

/-- `levenshtein_lookup(word, distance, …)` (lines 607–690). -/
def levenshteinLookup (detok : List τ → κ) (charTok : Bool) (t : Trie τ ν) (word : List τ)
    (k ins del sub swap : ℚ) : Except PyErr (List κ) :=
  if charTok = false ∨ ¬ 0 ≤ k ∨ ¬ 0 < word.length ∨ ¬ 0 ≤ ins ∨ ¬ 0 ≤ del ∨ ¬ 0 ≤ sub then
    .error .assertionError
  else
    match lookupLoop (levRow ins del sub swap word) (-1) k []
      [(List.range (word.length + 1)).map (fun d : Nat => (d : ℚ) * del)] [t.root.kids.reverse] with
    | .error e => .error e
    | .ok out => .ok (out.map detok)

/-- `damerau_levenshtein_lookup(word, distance, …)` (lines 692–774). -/
def damerauLookup (detok : List τ → κ) (charTok : Bool) (t : Trie τ ν) (word : List τ)
    (k ins del sub swap : ℚ) : Except PyErr (List κ) :=
  if charTok = false ∨ ¬ 0 ≤ k ∨ ¬ 0 < word.length ∨ ¬ 0 ≤ ins ∨ ¬ 0 ≤ del ∨ ¬ 0 ≤ sub ∨
      ¬ 0 ≤ swap then
    .error .assertionError
  else
    match lookupLoop (damRow ins del sub swap word) (-2) k []
      [(List.range' 1 word.length).map (fun d : Nat => (d : ℚ) * del) ++ [0]] [t.root.kids.reverse] with
    | .error e => .error e
    | .ok out => .ok (out.map detok)

end Trie
end Verif
