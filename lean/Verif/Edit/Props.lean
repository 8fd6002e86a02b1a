import Verif.Edit.BKLemmas

/-!
# C66–C69: edit distances and the BK tree

The specification (`OneEdit`, `OneEditT`, `Steps`, and the scripts `Edit`) is in `Verif.Edit.Spec`.
-/

namespace Verif
namespace Edit

open EditSpec

variable {α : Type} [DecidableEq α]

/-- **C66.** `edit_distance` never raises and returns the smallest number of single-character
insertions, deletions and substitutions that turn one sequence into the other. -/
theorem C66_edit_distance_least (s1 s2 : List α) :
    ∃ d, editDistance s1 s2 = .ok d ∧ IsLeast {n | Steps OneEdit n s1 s2} d :=
  ⟨_, editDistance_ok s1 s2, unit_isLeast s1 s2⟩

example : editDistance "kitten".toList "sitting".toList = .ok 3 := by decide +kernel

/-- **C66.** The two implementations agree. -/
theorem C66_levenshtein_same (s1 s2 : List α) : levenshtein s1 s2 = editDistance s1 s2 := by
  rw [levenshtein_ok, editDistance_ok]

example : levenshtein "saturday".toList "sunday".toList = .ok 3 := by decide +kernel

/-- **C67.** The distance is a metric. -/
theorem C67_metric (u v w : List α) :
    ∃ duv dvu dvw duw, levenshtein u v = .ok duv ∧ levenshtein v u = .ok dvu ∧
      levenshtein v w = .ok dvw ∧ levenshtein u w = .ok duw ∧
      (duv = 0 ↔ u = v) ∧ duv = dvu ∧ duw ≤ duv + dvw :=
  ⟨_, _, _, _, levenshtein_ok u v, levenshtein_ok v u, levenshtein_ok v w, levenshtein_ok u w,
    unit_eq_zero u v, unit_symm u v, unit_triangle u v w⟩

/-- **C67.** The distance is at least the difference of the lengths and at most the larger length. -/
theorem C67_length_bounds (u v : List α) :
    ∃ d, levenshtein u v = .ok d ∧ u.length - v.length ≤ d ∧ v.length - u.length ≤ d ∧
      d ≤ max u.length v.length := by
  have h := edit_length (by decide) (by decide) (edit_dist unitCosts u v)
  exact ⟨_, levenshtein_ok u v, by omega, by omega, unit_le_max u v⟩

example : levenshtein "abc".toList "xyzw".toList = .ok 4 := by decide +kernel

/-- **C68.** `damerau_levenshtein_distance` never raises and returns the least cost of an edit
script that touches every character at most once (optimal string alignment). -/
theorem C68_damerau_optimal_alignment (s1 s2 : List α) :
    ∃ d, damerauDistance s1 s2 = .ok d ∧ IsLeast {n | EditSpec.Edit unitCostsT s1 s2 n} d :=
  ⟨_, damerauDistance_ok s1 s2, edit_dist unitCostsT s1 s2, fun _ h => dist_le h⟩

/-- **C68.** It is symmetric and zero exactly on equal sequences, lies between half the Levenshtein
distance and the Levenshtein distance, and that many edits and transpositions do suffice. -/
theorem C68_damerau_laws (u v : List α) :
    ∃ d l, damerauDistance u v = .ok d ∧ damerauDistance v u = .ok d ∧ levenshtein u v = .ok l ∧
      (d = 0 ↔ u = v) ∧ d ≤ l ∧ l ≤ 2 * d ∧ Steps OneEditT d u v :=
  ⟨_, _, damerauDistance_ok u v, by rw [damerauDistance_ok, unitT_symm], levenshtein_ok u v,
    unitT_eq_zero u v, unitT_le_unit u v, unit_le_two_unitT u v,
    stepsT_of_edit (edit_dist unitCostsT u v)⟩

example : damerauDistance "fee".toList "deed".toList = .ok 2 := by decide +kernel
example : damerauDistance "ba".toList "abc".toList = .ok 2 := by decide +kernel

/-- **C68.** It is not the number of edits and transpositions that its docstring promises: for "ca"
and "abc" it returns 3 although two steps suffice. -/
theorem C68_damerau_not_minimal :
    ∃ s1 s2 : List Char, damerauDistance s1 s2 = .ok 3 ∧ Steps OneEditT 2 s1 s2 := by
  refine ⟨['c', 'a'], ['a', 'b', 'c'], by decide +kernel, ?_⟩
  exact .step (.swap [] 'c' 'a' []) (.step (.edit (.ins ['a'] 'b' ['c'])) (.zero _))

/-- **C68.** It violates the triangle inequality. -/
theorem C68_damerau_no_triangle :
    ∃ u v w : List Char, damerauDistance u w = .ok 3 ∧ damerauDistance u v = .ok 1 ∧
      damerauDistance v w = .ok 1 :=
  ⟨"ca".toList, "ac".toList, "abc".toList, by decide +kernel, by decide +kernel, by decide +kernel⟩

/-- **C69.** Building a BK tree and searching it never raises, and the search returns exactly the
inserted terms whose distance from the query is at most `k`, for every integer `k`. -/
theorem C69_bk_search_exact (first : List α) (words : List (List α)) (term : List α) (k : Int) :
    ∃ tree counter out, BK.build first words = .ok tree ∧
      BK.search tree term k = .ok (counter, out) ∧
      ∀ w, w ∈ out ↔ (w = first ∨ w ∈ words) ∧
        ∃ n : Nat, (n : Int) ≤ k ∧ Steps OneEdit n w term := by
  obtain ⟨tree, h1, h2, h3⟩ := BK.build_ok first words
  obtain ⟨c, l, h4, h5⟩ := BK.search_ok tree h2 term k
  refine ⟨tree, c, l, h1, h4, fun w => ?_⟩
  rw [h5, h3.mem_iff, List.mem_cons]
  refine and_congr_right fun _ => ⟨fun h => ⟨_, h, (unit_isLeast w term).1⟩, ?_⟩
  rintro ⟨n, hn, hs⟩
  have := unit_le_steps hs
  omega

example : (BK.build "banana".toList ["bandana".toList, "cabana".toList, "ban".toList,
    "banana".toList, "havana".toList] >>= fun t => BK.search t "banana".toList 2) =
    .ok (5, ["banana".toList, "banana".toList, "bandana".toList, "cabana".toList,
      "havana".toList]) := by decide +kernel

end Edit
end Verif
