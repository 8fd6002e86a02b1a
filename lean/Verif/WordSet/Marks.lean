import Verif.WordSet.Model

/-!
# `normalize_nfd_strip_marks` (nmd/nmd_word_set.py:42-48)

The tables of the Unicode database are parameters (`Ucd`). NFD is modelled as the standard defines
it and `unicodedata` does it: every character is replaced by its decomposition, then combining
characters are put into canonical order.
-/

namespace Verif

/-- What is used of the Unicode database. -/
structure Ucd where
  /-- full canonical decomposition of a character -/
  dec : Char → List Char
  /-- canonical combining class -/
  ccc : Char → ℕ
  /-- general category M (the pattern `\p{M}` of nmd/nmd_word_set.py:39) -/
  mark : Char → Bool
  /-- decompositions are complete -/
  dec_dec : ∀ c, ∀ d ∈ dec c, dec d = [d]
  /-- characters with a combining class are marks (Unicode standard, 3.11) -/
  ccc_mark : ∀ c, ccc c ≠ 0 → mark c = true

namespace Ucd

variable (U : Ucd)

/-- Canonical ordering moves a character to the left past those of higher class. The characters before it are
given last first (`unicodedata.normalize`, called at nmd/nmd_word_set.py:46). -/
def putBack : List Char → Char → List Char
  | [], c => [c]
  | p :: ps, c =>
    if U.ccc p = 0 ∨ U.ccc c = 0 ∨ U.ccc p ≤ U.ccc c then c :: p :: ps else p :: putBack ps c

/-- `unicodedata.normalize('NFD', text)`, called at nmd/nmd_word_set.py:46. -/
def nfd (text : List Char) : List Char :=
  ((text.flatMap U.dec).foldl U.putBack []).reverse

/-- `normalize_nfd_strip_marks(text)`, nmd/nmd_word_set.py:42-48. -/
def stripMarks (text : List Char) : List Char := (U.nfd text).filter (fun c => !U.mark c)

/-- `normalize_nfd_strip_marks` given as `unicode_normalizer` (nmd/nmd_word_set.py:79, 42-48); it never raises. -/
def stripper : Normalizer := some fun text => some (U.stripMarks text)

end Ucd
end Verif
