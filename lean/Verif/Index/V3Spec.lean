import Verif.Index.Spec

/-!
# Specification vocabulary for `ApproxWordListV3`

Two words are compared directly; no index is involved. The query is always bracketed by the
markers, the stored word only for `n > 1`.
-/

namespace Verif.IndexSpec

open GramSpec

/-- The query shares an n-gram with the stored word, for one of the sizes. -/
def Matches3 (ns : List ℤ) (q w : List Char) : Prop :=
  ∃ n ∈ ns, ∃ g ∈ grams n.toNat q, g ∈ gramsOf n w

instance (ns : List ℤ) (q w : List Char) : Decidable (Matches3 ns q w) := by
  unfold Matches3; infer_instance

/-- Over the shared n-grams, the larger number of occurrences minus the transport cost. -/
def overlap3 (n : ℤ) (q w : List Char) : ℚ :=
  ∑ g ∈ (grams n.toNat q).toFinset ∩ (gramsOf n w).toFinset,
    (max ((grams n.toNat q).count g : ℚ) ((gramsOf n w).count g)
      - emd (posOf (grams n.toNat q) g) (posOf (gramsOf n w) g))

/-- The score for one `n`: the overlap relative to the number of n-grams of the query. -/
def score3 (n : ℤ) (q w : List Char) : ℚ := overlap3 n q w / ((q.length : ℚ) + 3 - n)

/-- The scores for all sizes. -/
def scoreVec3 (ns : List ℤ) (q w : List Char) : List ℚ := ns.map (fun n => score3 n q w)

/-- The stored words after a list of arguments given to `add_word`: folded, without repetitions, in
order of first insertion; non-strings, empty words and words with markers are skipped. -/
def stored3 (fold : List Char → List Char) (args : List (Option (List Char))) : List (List Char) :=
  (args.filterMap (fun a => match a with
    | some w => if w ≠ [] ∧ fold w ≠ [] ∧ stx ∉ fold w ∧ etx ∉ fold w then some (fold w) else none
    | none => none)).foldl (fun l x => if x ∈ l then l else l ++ [x]) []

end Verif.IndexSpec
