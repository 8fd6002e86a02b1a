import Mathlib.Data.Rat.Lemmas
import Mathlib.Algebra.Order.Field.Rat

/-!
# Specifications for `process_file` and the number formats

Nothing here refers to the model.
-/

namespace Verif
namespace FileSpec

/-- Unix line ends: every `\r` before a `\n` is dropped, every other `\r` becomes `\n`. -/
def unixNewlines (text : List Char) : List Char :=
  (text.zip (text.tail.map some ++ [none])).filterMap fun p =>
    if p.1 = '\r' then if p.2 = some '\n' then none else some '\n' else some p.1

/-- The number written with these digits. -/
def natOf (ds : List Char) : ℕ := ds.foldl (fun a c => 10 * a + (c.toNat - '0'.toNat)) 0

/-- The number written in decimal notation, with or without a point. -/
def decimalOf (s : List Char) : ℚ :=
  let whole := s.takeWhile (· ≠ '.')
  let rest := (s.dropWhile (· ≠ '.')).drop 1
  natOf whole + natOf rest / 10 ^ rest.length

/-- Digits and points only. -/
def isDecimal (s : List Char) : Prop := s ≠ [] ∧ ∀ c ∈ s, c.isDigit = true ∨ c = '.'

end FileSpec
end Verif
