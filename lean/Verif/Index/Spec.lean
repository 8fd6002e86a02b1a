import Verif.Core.Spec
import Verif.Emd.Model
import Mathlib.Algebra.BigOperators.Group.Finset.Basic
import Mathlib.Order.Defs.LinearOrder

/-!
# Specification vocabulary for word-list lookups

Everything here compares two words directly; no index is involved.
-/

namespace Verif.IndexSpec

open GramSpec

/-- n-grams of a word: bracketed by markers for `n > 1`, plain characters for `n ≤ 1`. -/
def gramsOf (n : ℤ) (w : List Char) : List (List Char) :=
  if 1 < n then grams n.toNat w else w.map (fun c => [c])

/-- Relative positions of `g` in a list of n-grams. -/
def posOf (gs : List (List Char)) (g : List Char) : List ℚ :=
  (gs.zipIdx.filter (fun p => p.1 = g)).map (fun p => relPos gs.length p.2)

/-- `q` and `w` have an n-gram in common. -/
def Shares (n : ℤ) (q w : List Char) : Prop := ∃ g, g ∈ gramsOf n q ∧ g ∈ gramsOf n w

/-- A word can be found by a query: it shares a filter n-gram (unless the filter is off) and an
n-gram for one of the configured sizes. -/
def Eligible (ns : List ℤ) (filterN : ℤ) (q w : List Char) : Prop :=
  (filterN ≠ 0 → Shares filterN q w) ∧ ∃ n ∈ ns, Shares n q w

instance (n : ℤ) (q w : List Char) : Decidable (Shares n q w) :=
  decidable_of_iff (∃ g ∈ gramsOf n q, g ∈ gramsOf n w) Iff.rfl

instance (ns : List ℤ) (filterN : ℤ) (q w : List Char) : Decidable (Eligible ns filterN q w) := by
  unfold Eligible; infer_instance

/-- Similarity of two words for one `n`: over the shared n-grams, the number of occurrences minus
the transport cost between the relative positions (the value of `emd_1d_dp`, see `C01`). -/
def simN (n : ℤ) (q w : List Char) : ℚ :=
  ∑ g ∈ (gramsOf n q).toFinset ∩ (gramsOf n w).toFinset,
    (((gramsOf n q).count g : ℚ) + (gramsOf n w).count g
      - emd (posOf (gramsOf n q) g) (posOf (gramsOf n w) g))

/-- Number of common occurrences of n-grams, a lower bound for `simN`. -/
def commonN (n : ℤ) (q w : List Char) : ℚ :=
  ∑ g ∈ (gramsOf n q).toFinset ∩ (gramsOf n w).toFinset,
    ((min ((gramsOf n q).count g) ((gramsOf n w).count g) : ℕ) : ℚ)

/-- What the code divides by when normalising (for `n ≤ 1` this is not the number of n-grams). -/
def denom (n : ℤ) (q w : List Char) : ℤ :=
  if 1 < n then (q.length : ℤ) + w.length + 6 - 2 * n else (q.length : ℤ) + w.length + 4

/-- The similarity for one `n`, normalised or not. -/
def scoreN (normalize : Bool) (n : ℤ) (q w : List Char) : ℚ :=
  if normalize then simN n q w / denom n q w else simN n q w

/-- The similarities for all configured `n`. -/
def scoreVec (ns : List ℤ) (normalize : Bool) (q w : List Char) : List ℚ :=
  ns.map (fun n => scoreN normalize n q w)

/-- Lower bounds of the similarities. -/
def lowerVec (ns : List ℤ) (normalize : Bool) (q w : List Char) : List ℚ :=
  ns.map (fun n => if normalize then commonN n q w / denom n q w else commonN n q w)

/-- `agg` does not decrease when non-negative scores increase. -/
def MonotoneAgg {S : Type} [LE S] (agg : List ℚ → S) : Prop :=
  ∀ u v : List ℚ, List.Forall₂ (fun a b => 0 ≤ a ∧ a ≤ b) u v → agg u ≤ agg v

/-- The stored words a query can find. -/
def eligibleWords (ns : List ℤ) (filterN : ℤ) (q : List Char) (words : List (List Char)) :
    List (List Char) :=
  words.filter (fun w => Eligible ns filterN q w)

/-- A word is out of the running for the best `k`: at least `k` eligible words have a lower bound
above its upper bound (twice its own lower bound). -/
def Outranked {S : Type} [LinearOrder S] (agg : List ℚ → S) (ns : List ℤ) (filterN : ℤ)
    (normalize : Bool) (q : List Char) (words : List (List Char)) (k : ℕ) (w : List Char) : Prop :=
  k ≤ ((eligibleWords ns filterN q words).filter (fun v =>
    agg ((lowerVec ns normalize q w).map (fun x => x * 2)) < agg (lowerVec ns normalize q v))).length

instance {S : Type} [LinearOrder S] (agg : List ℚ → S) (ns : List ℤ) (filterN : ℤ)
    (normalize : Bool) (q : List Char) (words : List (List Char)) (k : ℕ) (w : List Char) :
    Decidable (Outranked agg ns filterN normalize q words k w) := by
  unfold Outranked; infer_instance

/-- The condition under which a lookup with valid arguments raises. -/
def LookupFails {S : Type} [LinearOrder S] (agg : List ℚ → S) (ns : List ℤ) (filterN : ℤ) (normalize : Bool)
    (words : List (List Char)) (k : ℕ) (q : List Char) : Prop :=
  (∃ w ∈ words, Eligible ns filterN q w) ∧
  ((∃ n ∈ ns, (gramsOf n q).length = 1) ∨
   (normalize = true ∧ ∃ w ∈ words, Eligible ns filterN q w ∧
      ¬ Outranked agg ns filterN normalize q words k w ∧ ∃ n ∈ ns, denom n q w = 0))

/-- The first `k` of a list of scores arranged in descending order. -/
def TopScores {S : Type} [LinearOrder S] (all : List S) (k : ℕ) (top : List S) : Prop :=
  ∃ rest, (top ++ rest).Perm all ∧ top.length = min k all.length ∧
    top.Pairwise (fun a b => b ≤ a) ∧ ∀ a ∈ top, ∀ b ∈ rest, b ≤ a

end Verif.IndexSpec
