import Verif.Emd.Spec

/-!
# Specification vocabulary for n-grams of a word

Independent of the implementation: n-grams and relative positions of a word between a start
and an end marker.
-/

namespace Verif.GramSpec

/-- Start-of-text marker U+0002 and end-of-text marker U+0003. -/
def stx : Char := '\x02'
/-- See `stx`. -/
def etx : Char := '\x03'

/-- A word without marker characters. -/
def Clean (w : List Char) : Prop := stx ∉ w ∧ etx ∉ w

/-- The word between its markers. -/
def bracketed (w : List Char) : List Char := [stx] ++ w ++ [etx]

/-- Number of n-grams of the bracketed word (zero if it is shorter than `n`). -/
def count (n : ℕ) (w : List Char) : ℕ := (bracketed w).length + 1 - n

/-- The `i`-th n-gram. -/
def gramAt (n : ℕ) (w : List Char) (i : ℕ) : List Char := ((bracketed w).drop i).take n

/-- All n-grams, in order of occurrence. -/
def grams (n : ℕ) (w : List Char) : List (List Char) := (List.range (count n w)).map (gramAt n w)

/-- Relative position of the `i`-th of `m` n-grams: 0 for the first, 1 for the last. -/
def relPos (m i : ℕ) : ℚ := (i : ℚ) / max 1 ((m : ℚ) - 1)

/-- Relative positions at which `g` occurs. -/
def positionsOf (n : ℕ) (w : List Char) (g : List Char) : List ℚ :=
  ((List.range (count n w)).filter (fun i => gramAt n w i = g)).map (relPos (count n w))

end Verif.GramSpec
