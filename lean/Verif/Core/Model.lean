import Verif.Emd.Model
import Verif.Py.Dict

/-!
# Model of `nmd/nmd_core.py`
-/

namespace Verif

/-- A dynamically typed argument, as far as the `isinstance` checks distinguish it
(nmd/nmd_core.py:22-34). `bool` arguments for `n` are the integers 0 and 1. -/
inductive PyVal where
  | str (s : List Char)
  | int (i : ℤ)
  | other
deriving DecidableEq

/-- Word checks, nmd/nmd_core.py:22-25 (and 27-30). -/
def checkWord : PyVal → Except PyErr (List Char)
  | .str s => if '\x02' ∈ s ∨ '\x03' ∈ s then .error .valueError else .ok s
  | _ => .error .typeError

/-- Checks on `n`, nmd/nmd_core.py:32-35. -/
def checkN : PyVal → Except PyErr ℤ
  | .int n => if n < 2 then .error .valueError else .ok n
  | _ => .error .typeError

/-- Slice `w[a:b]` for `0 ≤ a ≤ b`. -/
def pySlice {α : Type} (w : List α) (a b : ℕ) : List α := (w.drop a).take (b - a)

/-- `f'\2{word}\3'`, nmd/nmd_core.py:42-43. -/
def pad (w : List Char) : List Char := '\x02' :: (w ++ ['\x03'])

/-- `num_grams = len(word) - n + 1` of the padded word; may be zero or negative,
nmd/nmd_core.py:46-47. -/
def numGramsInt (padded : List Char) (n : ℤ) : ℤ := padded.length - n + 1

/-- The loop filling `n_gram_locations`, nmd/nmd_core.py:50-55. -/
def nGramLocations (padded : List Char) (n : ℤ) : Dict (List Char) (List ℚ) :=
  (List.range (numGramsInt padded n).toNat).foldl
    (fun d idx => Dict.appendTo d (pySlice padded idx (idx + n.toNat))
      ((idx : ℚ) / max 1 ((numGramsInt padded n : ℚ) - 1))) []

/-- The similarity loop over the items of the first dict, nmd/nmd_core.py:64-68. -/
def similarityLoop (d₁ d₂ : Dict (List Char) (List ℚ)) : ℚ :=
  d₁.foldl (fun s item =>
    match Dict.get? d₂ item.1 with
    | none => s
    | some l₂ => s + (item.2.length + l₂.length) - emd item.2 l₂) 0

/-- nmd/nmd_core.py:42-74: the computation after the argument checks. -/
def nmdChecked (w₁ w₂ : List Char) (n : ℤ) (invert normalize : Bool) : Except PyErr ℚ :=
  let p₁ := pad w₁
  let p₂ := pad w₂
  let m₁ := numGramsInt p₁ n
  let m₂ := numGramsInt p₂ n
  let similarity := similarityLoop (nGramLocations p₁ n) (nGramLocations p₂ n)
  let output : ℚ := if invert then similarity else (m₁ : ℚ) + m₂ - similarity
  if normalize then
    if m₁ + m₂ = 0 then .error .zeroDivisionError else .ok (output / ((m₁ : ℚ) + m₂))
  else .ok output

/-- `ngram_movers_distance(word_1, word_2, n, invert, normalize)`, nmd/nmd_core.py:4-74. -/
def nmd (word₁ word₂ n : PyVal) (invert normalize : Bool) : Except PyErr ℚ := do
  let w₁ ← checkWord word₁
  let w₂ ← checkWord word₂
  let k ← checkN n
  nmdChecked w₁ w₂ k invert normalize

end Verif
