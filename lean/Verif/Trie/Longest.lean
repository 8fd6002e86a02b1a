import Verif.Trie.Scan
import Verif.Py.Index
import Verif.Py.Sort
import Mathlib.Data.Prod.Lex

/-!
# Model of `Trie.findall_longest` (experiments/find_replace_trie.py, lines 968–1042)

* The matches are those of `finditer(…, allow_overlapping=True)` as `(start, end, tokens)`.
* The nested pairs `(match, (match, … None))` are lists with the last match first.
-/

namespace Verif
namespace Trie

variable {κ τ ν : Type} [DecidableEq τ]

/-- `len(match)` (lines 79–80). -/
def hitLen (h : Hit τ) : Nat := h.2.1 - h.1

/-- `bisect.bisect_right(a, x)` on a sorted list: the number of entries that are at most `x`. -/
def bisectRight (a : List Nat) (x : Nat) : Nat := a.countP (· ≤ x)

/-- `for _match in _matches: …` (lines 996–1001). -/
def bestMatch (ends : List Nat) (values : List (Nat × List (Hit τ))) :
    List (Hit τ) → Nat × Int → Option (List (Hit τ)) →
      Except PyErr ((Nat × Int) × Option (List (Hit τ)))
  | [], bv, bm => .ok (bv, bm)
  | m :: ms, bv, bm =>
    match pyGetI values ((bisectRight ends m.1 : Int) - 1) with
    | .error e => .error e
    | .ok (pv, pm) =>
      let nv : Nat × Int := (pv + hitLen m, -(m.1 : Int))
      if bv.1 < nv.1 ∨ (bv.1 = nv.1 ∧ bv.2 < nv.2) then bestMatch ends values ms nv (some (m :: pm))
      else bestMatch ends values ms bv bm

/-- `while matches: …` (lines 980–1009). `pending` are the matches in the order in which they are
popped. Every round removes a match, so `fuel = len(matches)` rounds are enough. -/
def lisLoop : Nat → List (Hit τ) → List Nat → List (Nat × List (Hit τ)) →
    Except PyErr (List (Nat × List (Hit τ)))
  | 0, _, _, values => .ok values
  | _ + 1, [], _, values => .ok values
  | fuel + 1, m :: rest, ends, values =>
    match pyGetI ends (-1) with
    | .error e => .error e
    | .ok last =>
      if ¬ last < m.2.1 then .error .assertionError
      else
        match bestMatch ends values (m :: rest.takeWhile (fun h => h.2.1 = m.2.1))
          (0, -(m.2.1 : Int)) none with
        | .error e => .error e
        | .ok (_, none) => .error .assertionError
        | .ok (bv, some bm) =>
          match pyGetI values (-1) with
          | .error e => .error e
          | .ok (pv, _) =>
            let rest := rest.dropWhile (fun h => h.2.1 = m.2.1)
            if pv < bv.1 then lisLoop fuel rest (ends ++ [m.2.1]) (values ++ [(bv.1, bm)])
            else lisLoop fuel rest ends values

/-- `longest_increasing_subsequence(matches)` (lines 972–1019). -/
def longestSubsequence (ms : List (Hit τ)) : Except PyErr (List (Hit τ)) :=
  match ms with
  | [] => .ok []
  | ms =>
    let sorted := sortDesc (fun h : Hit τ => toLex (h.2.1, h.1)) ms
    match lisLoop sorted.length sorted.reverse [0] [(0, [])] with
    | .error e => .error e
    | .ok values =>
      match pyGetI values (-1) with
      | .error e => .error e
      | .ok (_, bm) => .ok bm.reverse

/-- The loop over the sorted matches (lines 1021–1035) and the remaining cluster
(lines 1037–1040). -/
def clusterLoop : List (Hit τ) → List (Hit τ) → List (Hit τ) → Nat → Except PyErr (List (Hit τ))
  | [], out, cluster, _ =>
    match longestSubsequence cluster with
    | .error e => .error e
    | .ok l => .ok (out ++ l)
  | m :: ms, out, cluster, clusterEnd =>
    if cluster = [] ∨ m.1 < clusterEnd then
      clusterLoop ms out (cluster ++ [m]) (max clusterEnd m.2.1)
    else
      match longestSubsequence cluster with
      | .error e => .error e
      | .ok l => clusterLoop ms (out ++ l) [m] (max clusterEnd m.2.1)

/-- `findall_longest(input_sequence)` (lines 968–1042). -/
def findallLongest (tok : κ → List τ) (detok : List τ → κ) (t : Trie τ ν) (text : κ) :
    Except PyErr (List κ) :=
  match findTokens t.root true (tok text) with
  | .error e => .error e
  | .ok hits =>
    match clusterLoop (hits.insertionSort (fun a b => toLex (a.1, a.2.1) ≤ toLex (b.1, b.2.1)))
      [] [] 0 with
    | .error e => .error e
    | .ok l => .ok (l.map (fun h => detok h.2.2))

end Trie
end Verif
