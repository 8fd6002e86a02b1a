import Verif.Core.Spec
import Verif.Emd.Model
import Mathlib.Algebra.BigOperators.Group.Finset.Basic

/-!
# Specification vocabulary for `WordSet`

A word set is abstractly the list of its members in order of insertion, each with its normalised
form (`key`) and the spelling under which it was first added (`orig`). There are no ids, no
indexes and no stored n-grams.
-/

namespace Verif.WordSetSpec

open GramSpec

/-- A member: normalised form and original spelling. -/
structure Member where
  key : List Char
  orig : List Char
deriving DecidableEq

/-- The normalised form of a word, `none` if the word is rejected. -/
def keyOf (caseSensitive : Bool) (cf : List Char → List Char)
    (un : Option (List Char → Option (List Char))) (w : List Char) : Option (List Char) :=
  let folded := if caseSensitive then w else cf w
  match (match un with | none => some folded | some f => f folded) with
  | none => none
  | some k => if '\x00' ∈ k then none else some k

/-- Some member has this normalised form. -/
def Mem (s : List Member) (k : List Char) : Prop := ∃ m ∈ s, m.key = k

instance (s : List Member) (k : List Char) : Decidable (Mem s k) := by unfold Mem; infer_instance

/-- Insert a member unless its key is present. -/
def insert (s : List Member) (m : Member) : List Member := if Mem s m.key then s else s ++ [m]

/-- Remove the member with a given key. -/
def delete (s : List Member) (k : List Char) : List Member := s.filter (fun m => m.key ≠ k)

/-- Similarity for one n-gram size: over the n-grams of both words, occurrences minus transport
cost between the relative positions (the value of `emd_1d_dp`, see C01). -/
def simOf (n : ℕ) (q w : List Char) : ℚ :=
  ∑ g ∈ (grams n q).toFinset ∩ (grams n w).toFinset,
    (((positionsOf n q g).length : ℚ) + (positionsOf n w g).length -
      emd (positionsOf n q g) (positionsOf n w g))

/-- Number of n-grams of both words, over all sizes. -/
def totalCount (ns : List ℕ) (q w : List Char) : ℕ := (ns.map (fun n => count n q + count n w)).sum

/-- Combined similarity of two normalised words. -/
def score (ns : List ℕ) (q w : List Char) : ℚ :=
  (ns.map (fun n => simOf n q w)).sum / (totalCount ns q w : ℚ)

/-- The filter size: 3 if configured, else the smallest size if it is at most 4. -/
def filterSize (ns : List ℕ) : Option ℕ :=
  if 3 ∈ ns then some 3
  else
    match ns with
    | [] => none
    | n :: _ => if n ≤ 4 then some n else none

/-- A word can be found by a query: they share an n-gram of the filter size; without a filter,
at least one of them has an n-gram at all. -/
def Candidate (ns : List ℕ) (q w : List Char) : Prop :=
  match filterSize ns with
  | some f => ∃ g ∈ grams f q, g ∈ grams f w
  | none => 0 < totalCount ns q w

instance (ns : List ℕ) (q w : List Char) : Decidable (Candidate ns q w) := by
  unfold Candidate; split <;> infer_instance

/-- `a` is preferred to `b`: higher score, or equal score and earlier insertion. -/
def Preferred (ns : List ℕ) (q : List Char) (s : List Member) (a b : Member) : Prop :=
  score ns q b.key < score ns q a.key ∨
  (score ns q b.key = score ns q a.key ∧ s.idxOf a < s.idxOf b)

/-- `res` lists the `k` preferred candidates among the members `s`, in order of preference. -/
structure Ranking (ns : List ℕ) (q : List Char) (s : List Member) (k : ℕ) (res : List Member) :
    Prop where
  members : ∀ m ∈ res, m ∈ s ∧ Candidate ns q m.key
  ordered : res.Pairwise (Preferred ns q s)
  length : res.length = min k (s.filter (fun m => Candidate ns q m.key)).length
  best : ∀ m ∈ s, Candidate ns q m.key → m ∉ res → ∀ r ∈ res, Preferred ns q s r m

/-- The ranking as a function: candidates in insertion order, stably sorted by descending score
(`ranked_ranking` and `ranking_unique` relate it to `Ranking`). -/
def ranked (ns : List ℕ) (q : List Char) (s : List Member) (k : ℕ) : List Member :=
  ((s.filter (fun m => Candidate ns q m.key)).insertionSort
    (fun a b => score ns q b.key ≤ score ns q a.key)).take k

end Verif.WordSetSpec
