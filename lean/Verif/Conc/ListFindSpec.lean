import Verif.Conc.ListFindModel
import Verif.Conc.ListSpec
import Verif.Index.Spec

/-!
# Vocabulary for statements about a `lookup` while other threads call `add_word`
-/

namespace Verif
namespace ListConc

open IndexSpec

/-- What the lookup has returned or raised. -/
def RPc.outcome {S : Type} : RPc S → Option (Except PyErr (List (List Char × (S ×ₗ ℚ))))
  | .done r => some r
  | _ => none

/-- The word is in the vocabulary, and no call in progress is adding it. -/
def Stored (cf : List Char → List Char) (C : ℕ → Call) (s : Sys) (x : List Char) : Prop :=
  x ∈ s.mem.vocabulary ∧
  ∀ i, (s.pc i).active = true → target cf s.mem.caseInsensitive (C i).word ≠ some x

variable {S : Type} [LinearOrder S] (agg : List ℚ → S) (ns : List ℤ) (filterN : ℤ) (normalize : Bool)

/-- The words other than `w` that a query can find and that score at least as well as `w`. -/
def rivals (words : List (List Char)) (q w : List Char) : List (List Char) :=
  (eligibleWords ns filterN q words).filter fun v =>
    v ≠ w ∧ agg (scoreVec ns normalize q w) ≤ agg (scoreVec ns normalize q v)

/-- What a lookup returns while words are being added: `stored` are the words stored when it begins,
`after` those stored at the end. -/
structure Found (stored : List Char → Prop) (after : List (List Char)) (k : ℕ) (q : List Char)
    (res : List (List Char × (S ×ₗ ℚ))) : Prop where
  /-- distinct words -/
  nodup : (res.map Prod.fst).Nodup
  /-- as many as asked for, or fewer -/
  length : res.length ≤ k
  /-- best first -/
  sorted : res.Pairwise (fun a b => b.2 ≤ a.2)
  /-- words that can be found, with at most their score, and the right second score -/
  scores : ∀ r ∈ res, r.1 ∈ after ∧ Eligible ns filterN q r.1 ∧
    (ofLex r.2).1 ≤ agg (scoreVec ns normalize q r.1) ∧
    nmd (.str q) (.str r.1) (.int 2) true normalize = .ok (ofLex r.2).2
  /-- a word stored from the beginning has the right score -/
  exact : ∀ r ∈ res, stored r.1 → (ofLex r.2).1 = agg (scoreVec ns normalize q r.1)
  /-- a word stored from the beginning is missing only if there are enough words as good -/
  best : ∀ w, stored w → Eligible ns filterN q w → w ∉ res.map Prod.fst →
    k ≤ (rivals agg ns filterN normalize after q w).length

end ListConc
end Verif
