import Verif.Trie.Spec

/-!
# Specification of text search and replacement

A text is cut into segments: occurrences of keys and single tokens outside any occurrence.
`LeftmostLongest` says that a cutting is the leftmost-longest one. Nothing here refers to the
model.
-/

namespace Verif
namespace TrieSpec

variable {τ ν : Type}

/-- A piece of a text. -/
inductive Seg (τ ν : Type) where
  | tok (t : τ)                    -- a token outside any match
  | hit (w : List τ) (v : ν)       -- an occurrence of the key `w`, whose value is `v`

/-- The tokens covered by a piece. -/
def Seg.text : Seg τ ν → List τ
  | .tok t => [t]
  | .hit w _ => w

/-- `segs` is the leftmost-longest cutting of a text: reading from the left, whenever some
non-empty key starts at the current position the longest such key is taken as a whole, and
otherwise one token is passed over. -/
inductive LeftmostLongest (m : Map τ ν) : List τ → List (Seg τ ν) → Prop where
  | nil : LeftmostLongest m [] []
  | hit {w rest v segs} : w ≠ [] → m w = some v →
      (∀ w', w' <+: w ++ rest → m w' ≠ none → w'.length ≤ w.length) →
      LeftmostLongest m rest segs → LeftmostLongest m (w ++ rest) (.hit w v :: segs)
  | tok {t rest segs} : (∀ w', w' <+: t :: rest → w' ≠ [] → m w' = none) →
      LeftmostLongest m rest segs → LeftmostLongest m (t :: rest) (.tok t :: segs)

/-- The occurrences in a cutting that starts at position `pos`, as (start, end, tokens). -/
def occurrences : Nat → List (Seg τ ν) → List (Nat × Nat × List τ)
  | _, [] => []
  | pos, .tok _ :: segs => occurrences (pos + 1) segs
  | pos, .hit w _ :: segs => (pos, pos + w.length, w) :: occurrences (pos + w.length) segs

/-- The text with every occurrence replaced by the tokens of its value. -/
def replaced (tokv : ν → List τ) : List (Seg τ ν) → List τ
  | [] => []
  | .tok t :: segs => t :: replaced tokv segs
  | .hit _ v :: segs => tokv v ++ replaced tokv segs

end TrieSpec
end Verif
