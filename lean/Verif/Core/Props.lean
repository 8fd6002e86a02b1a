import Verif.Core.Lemmas
import Mathlib.Algebra.Order.BigOperators.Group.Finset

/-!
# Properties C10–C19: `ngram_movers_distance`

`nmd w₁ w₂ n invert normalize` models the call. `PyVal.str a` is a `str` argument.
-/

namespace Verif

open EmdSpec GramSpec

/-- "has at least one n-gram". -/
def HasGram (n : ℤ) (w : List Char) : Prop := n ≤ (w.length : ℤ) + 2

/-- C10. Complete decision table for the exceptions, in the order of the checks. The last two
lines: with valid arguments the only possible exception is `ZeroDivisionError`, raised exactly
when normalising and the two (possibly negative) n-gram counts cancel. -/
theorem C10_validation (v₁ v₂ k : PyVal) (invert normalize : Bool) :
    ((∀ s, v₁ ≠ .str s) → nmd v₁ v₂ k invert normalize = .error .typeError) ∧
    (∀ a, v₁ = .str a → ¬ Clean a → nmd v₁ v₂ k invert normalize = .error .valueError) ∧
    (∀ a, v₁ = .str a → Clean a → (∀ s, v₂ ≠ .str s) →
      nmd v₁ v₂ k invert normalize = .error .typeError) ∧
    (∀ a b, v₁ = .str a → Clean a → v₂ = .str b → ¬ Clean b →
      nmd v₁ v₂ k invert normalize = .error .valueError) ∧
    (∀ a b, v₁ = .str a → Clean a → v₂ = .str b → Clean b → (∀ n, k ≠ .int n) →
      nmd v₁ v₂ k invert normalize = .error .typeError) ∧
    (∀ a b n, v₁ = .str a → Clean a → v₂ = .str b → Clean b → k = .int n → n < 2 →
      nmd v₁ v₂ k invert normalize = .error .valueError) ∧
    (∀ a b n, v₁ = .str a → Clean a → v₂ = .str b → Clean b → k = .int n → 2 ≤ n →
      normalize = true → (a.length : ℤ) + b.length + 6 = 2 * n →
      nmd v₁ v₂ k invert normalize = .error .zeroDivisionError) ∧
    (∀ a b n, v₁ = .str a → Clean a → v₂ = .str b → Clean b → k = .int n → 2 ≤ n →
      ¬ (normalize = true ∧ (a.length : ℤ) + b.length + 6 = 2 * n) →
      ∃ r, nmd v₁ v₂ k invert normalize = .ok r) := by
  have hbad : ∀ a, ¬ Clean a → checkWord (.str a) = .error .valueError := by
    intro a ha
    have : '\x02' ∈ a ∨ '\x03' ∈ a := by
      by_contra hc
      rw [not_or] at hc
      exact ha hc
    simp [checkWord, this]
  have hns : ∀ v, (∀ s, v ≠ PyVal.str s) → checkWord v = .error .typeError := by
    intro v hv
    cases v with
    | str s => exact absurd rfl (hv s)
    | int i => rfl
    | other => rfl
  refine ⟨?_, ?_, ?_, ?_, ?_, ?_, ?_, ?_⟩
  · intro h
    simp [nmd, hns _ h, bind, Except.bind]
  · rintro a rfl h
    simp [nmd, hbad a h, bind, Except.bind]
  · rintro a rfl h1 h2
    simp [nmd, checkWord_str h1, hns _ h2, bind, Except.bind]
  · rintro a b rfl h1 rfl h2
    simp [nmd, checkWord_str h1, hbad b h2, bind, Except.bind]
  · rintro a b rfl h1 rfl h2 h3
    have : checkN k = .error .typeError := by
      cases k with
      | str s => rfl
      | int i => exact absurd rfl (h3 i)
      | other => rfl
    simp [nmd, checkWord_str h1, checkWord_str h2, this, bind, Except.bind]
  · rintro a b n rfl h1 rfl h2 rfl h3
    simp [nmd, checkWord_str h1, checkWord_str h2, checkN, h3, bind, Except.bind]
  · rintro a b n rfl h1 rfl h2 rfl h3 rfl h4
    rw [nmd_valid h1 h2 h3]
    have : countInt n a + countInt n b = 0 := by unfold countInt; omega
    simp [this]
  · rintro a b n rfl h1 rfl h2 rfl h3 h4
    rw [nmd_valid h1 h2 h3]
    cases normalize with
    | false => exact ⟨_, rfl⟩
    | true =>
      have : countInt n a + countInt n b ≠ 0 := by
        intro hc
        apply h4
        refine ⟨rfl, ?_⟩
        unfold countInt at hc; omega
      simp only [this, if_false, if_true]
      exact ⟨_, rfl⟩

/-- Every row of the table is reachable. -/
example : nmd .other (.str ['\x02']) .other false false = .error .typeError ∧
    nmd (.str ['a', '\x03']) .other .other false false = .error .valueError ∧
    nmd (.str ['a']) (.int 3) .other false false = .error .typeError ∧
    nmd (.str ['a']) (.str ['\x02']) .other false false = .error .valueError ∧
    nmd (.str ['a']) (.str ['b']) (.str ['2']) false false = .error .typeError ∧
    nmd (.str ['a']) (.str ['b']) (.int 1) false false = .error .valueError ∧
    nmd (.str ['a']) (.str ['b']) (.int 4) false true = .error .zeroDivisionError ∧
    nmd (.str ['a', 'b']) (.str ['a']) (.int 2) false false = .ok 3 := by
  refine ⟨?_, ?_, ?_, ?_, ?_, ?_, ?_, ?_⟩ <;> decide +kernel

/-- C11. The distance, computed through the similarity of the shared n-grams, equals the sum
over *all* n-grams of either word of the least transport cost between its relative positions. -/
theorem C11_sum_of_emd {a b : List Char} (ha : Clean a) (hb : Clean b) {n : ℤ} (hn : 2 ≤ n)
    (hla : n ≤ (a.length : ℤ) + 3) (hlb : n ≤ (b.length : ℤ) + 3) :
    ∃ c : List Char → ℚ,
      (∀ g, IsEmd (positionsOf n.toNat a g) (positionsOf n.toNat b g) (c g)) ∧
      nmd (.str a) (.str b) (.int n) false false =
        .ok (∑ g ∈ (grams n.toNat a).toFinset ∪ (grams n.toNat b).toFinset, c g) := by
  refine ⟨fun g => emd (positionsOf n.toNat a g) (positionsOf n.toNat b g),
    fun g => isEmd_emd _ _, ?_⟩
  rw [nmd_valid ha hb hn]
  have h := sub_locSim_eq_sum_emd (located n.toNat a) (located n.toNat b)
    (U := (grams n.toNat a).toFinset ∪ (grams n.toNat b).toFinset)
    (by rw [gramSet_located]; exact Finset.subset_union_left)
    (by rw [gramSet_located]; exact Finset.subset_union_right)
  simp only [locs_located, length_located] at h
  simp only [Bool.false_eq_true, if_false]
  rw [← h, countInt_eq_count hn hla, countInt_eq_count hn hlb]
  push_cast; rfl

/-- The hypotheses are satisfiable and the sum is non-trivial: 'aba' and 'ab' share `^a` and `ab`,
the latter at positions 1/3 and 1/2. -/
example : Clean "aba".toList ∧ Clean "ab".toList ∧
    nmd (.str "aba".toList) (.str "ab".toList) (.int 2) false false = .ok (19 / 6) := by
  refine ⟨⟨by decide, by decide⟩, ⟨by decide, by decide⟩, by decide +kernel⟩

/-- The restriction on `n` is needed: with `n` beyond the padded length the raw distance is
negative. -/
example : nmd (.str ['a']) (.str ['a']) (.int 5) false false = .ok (-2) := by decide +kernel

/-- C12. A word compared with itself: distance 0, similarity twice its n-gram count; normalised
0 and 1. -/
theorem C12_self {a : List Char} (ha : Clean a) {n : ℤ} (hn : 2 ≤ n) (hla : HasGram n a) :
    nmd (.str a) (.str a) (.int n) false false = .ok 0 ∧
    nmd (.str a) (.str a) (.int n) true false = .ok (2 * (count n.toNat a : ℚ)) ∧
    nmd (.str a) (.str a) (.int n) false true = .ok 0 ∧
    nmd (.str a) (.str a) (.int n) true true = .ok 1 := by
  unfold HasGram at hla
  simp only [nmd_valid ha ha hn, locSim_self, length_located,
    countInt_eq_count hn (show n ≤ (a.length : ℤ) + 3 by omega)]
  have hc : 1 ≤ count n.toNat a := by rw [count_eq]; omega
  have hq : (1 : ℚ) ≤ count n.toNat a := by exact_mod_cast hc
  have hne : (count n.toNat a : ℤ) + (count n.toNat a : ℤ) ≠ 0 := by omega
  refine ⟨?_, ?_, ?_, ?_⟩
  · simp; ring
  · simp
  · simp only [hne, if_false, Bool.false_eq_true, if_true]
    push_cast
    rw [show (count n.toNat a : ℚ) + count n.toNat a - 2 * count n.toNat a = 0 by ring, zero_div]
  · simp only [hne, if_false, if_true]
    push_cast
    rw [← two_mul, div_self (by positivity)]

example : HasGram 3 "banana".toList ∧
    nmd (.str "banana".toList) (.str "banana".toList) (.int 3) true false = .ok 12 := by
  constructor
  · unfold HasGram; decide
  · decide +kernel

/-- Without an n-gram the normalised distance of a word to itself is 1. -/
example : nmd (.str ['a']) (.str ['a']) (.int 5) false true = .ok 1 := by decide +kernel

/-- C13. Distance zero happens only between equal words. -/
theorem C13_zero_iff_eq {a b : List Char} (ha : Clean a) (hb : Clean b) {n : ℤ} (hn : 2 ≤ n)
    (hla : HasGram n a) (hlb : HasGram n b) :
    (nmd (.str a) (.str b) (.int n) false false = .ok 0 ↔ a = b) ∧
    (nmd (.str a) (.str b) (.int n) false true = .ok 0 ↔ a = b) ∧
    (nmd (.str a) (.str b) (.int n) true true = .ok 1 ↔ a = b) := by
  have key : (count n.toNat a : ℚ) + count n.toNat b -
      locSim (located n.toNat a) (located n.toNat b) = 0 → a = b := by
    intro h
    have h' : locSim (located n.toNat a) (located n.toNat b) =
        (located n.toNat a).length + (located n.toNat b).length := by
      simp only [length_located]; linarith
    rw [locSim_full_iff] at h'
    exact located_perm_inj (by omega) (by unfold HasGram at hla; omega) h'
  have hself := C12_self ha hn hla
  have hc : 1 ≤ count n.toNat a := by unfold HasGram at hla; rw [count_eq]; omega
  have hq : (1 : ℚ) ≤ count n.toNat a := by exact_mod_cast hc
  have hq' : (0 : ℚ) ≤ count n.toNat b := Nat.cast_nonneg _
  unfold HasGram at hla hlb
  have hne : (count n.toNat a : ℤ) + (count n.toNat b : ℤ) ≠ 0 := by omega
  have hd : (count n.toNat a : ℚ) + (count n.toNat b : ℚ) ≠ 0 := by linarith
  refine ⟨⟨?_, ?_⟩, ⟨?_, ?_⟩, ⟨?_, ?_⟩⟩
  · intro h
    rw [nmd_valid ha hb hn, countInt_eq_count hn (show n ≤ (a.length : ℤ) + 3 by omega),
      countInt_eq_count hn (show n ≤ (b.length : ℤ) + 3 by omega)] at h
    simp only [Bool.false_eq_true, if_false] at h
    injection h with h
    push_cast at h
    exact key h
  · rintro rfl; exact hself.1
  · intro h
    rw [nmd_valid ha hb hn, countInt_eq_count hn (show n ≤ (a.length : ℤ) + 3 by omega),
      countInt_eq_count hn (show n ≤ (b.length : ℤ) + 3 by omega)] at h
    simp only [hne, Bool.false_eq_true, if_false, if_true] at h
    injection h with h
    push_cast at h
    rw [div_eq_zero_iff] at h
    rcases h with h | h
    · exact key h
    · exact absurd h hd
  · rintro rfl; exact hself.2.2.1
  · intro h
    rw [nmd_valid ha hb hn, countInt_eq_count hn (show n ≤ (a.length : ℤ) + 3 by omega),
      countInt_eq_count hn (show n ≤ (b.length : ℤ) + 3 by omega)] at h
    simp only [hne, if_false, if_true] at h
    injection h with h
    push_cast at h
    rw [div_eq_one_iff_eq hd] at h
    exact key (by linarith)
  · rintro rfl; exact hself.2.2.2

/-- Anagrams with the same bigrams in a different order are told apart. -/
example : nmd (.str "abcab".toList) (.str "cabab".toList) (.int 2) false false ≠ .ok 0 := by
  decide +kernel

/-- The hypotheses are needed: with no n-grams at all, different words have distance 0. -/
example : nmd (.str ['a']) (.str ['b']) (.int 4) false false = .ok 0 := by decide +kernel

/-- C14. Symmetry for all strings, all `n` (of any type) and all flags, exceptions included. For
arbitrary arguments at least "raises / does not raise" is symmetric. -/
theorem C14_symm (k : PyVal) (invert normalize : Bool) :
    (∀ a b, nmd (.str a) (.str b) k invert normalize = nmd (.str b) (.str a) k invert normalize) ∧
    (∀ v₁ v₂, (∃ e, nmd v₁ v₂ k invert normalize = .error e) ↔
      (∃ e, nmd v₂ v₁ k invert normalize = .error e)) := by
  have hstr : ∀ a b, nmd (.str a) (.str b) k invert normalize =
      nmd (.str b) (.str a) k invert normalize := by
    intro a b
    obtain ⟨_, t2, _, t4, t5, t6, _⟩ := C10_validation (.str a) (.str b) k invert normalize
    obtain ⟨_, u2, _, u4, u5, u6, _⟩ := C10_validation (.str b) (.str a) k invert normalize
    by_cases ha : Clean a
    · by_cases hb : Clean b
      · cases k with
        | str s => rw [t5 a b rfl ha rfl hb (by simp), u5 b a rfl hb rfl ha (by simp)]
        | other => rw [t5 a b rfl ha rfl hb (by simp), u5 b a rfl hb rfl ha (by simp)]
        | int n =>
          by_cases hn : n < 2
          · rw [t6 a b n rfl ha rfl hb rfl hn, u6 b a n rfl hb rfl ha rfl hn]
          · rw [nmd_valid ha hb (not_lt.1 hn), nmd_valid hb ha (not_lt.1 hn), locSim_comm,
              add_comm (countInt n a), add_comm (countInt n a : ℚ)]
      · rw [t4 a b rfl ha rfl hb, u2 b rfl hb]
    · by_cases hb : Clean b
      · rw [t2 a rfl ha, u4 b a rfl hb rfl ha]
      · rw [t2 a rfl ha, u2 b rfl hb]
  have hns : ∀ v₁ v₂, (∀ s, v₁ ≠ PyVal.str s) →
      (∃ e, nmd v₁ v₂ k invert normalize = .error e) ∧
      (∃ e, nmd v₂ v₁ k invert normalize = .error e) := by
    intro v₁ v₂ h
    obtain ⟨t1, _⟩ := C10_validation v₁ v₂ k invert normalize
    obtain ⟨u1, u2, u3, _⟩ := C10_validation v₂ v₁ k invert normalize
    refine ⟨⟨_, t1 h⟩, ?_⟩
    by_cases h2 : ∀ s, v₂ ≠ PyVal.str s
    · exact ⟨_, u1 h2⟩
    · simp only [not_forall, not_not] at h2
      obtain ⟨s, hs⟩ := h2
      by_cases hc : Clean s
      · exact ⟨_, u3 s hs hc h⟩
      · exact ⟨_, u2 s hs hc⟩
  refine ⟨hstr, ?_⟩
  intro v₁ v₂
  by_cases h1 : ∀ s, v₁ ≠ PyVal.str s
  · exact ⟨fun _ => (hns v₁ v₂ h1).2, fun _ => (hns v₁ v₂ h1).1⟩
  · by_cases h2 : ∀ s, v₂ ≠ PyVal.str s
    · exact ⟨fun _ => (hns v₂ v₁ h2).1, fun _ => (hns v₂ v₁ h2).2⟩
    · simp only [not_forall, not_not] at h1 h2
      obtain ⟨a, rfl⟩ := h1
      obtain ⟨b, rfl⟩ := h2
      rw [hstr]

/-- The kind of exception is not symmetric: the first offending argument decides. -/
example : nmd (.int 1) (.str ['\x02']) (.int 2) false false = .error .typeError ∧
    nmd (.str ['\x02']) (.int 1) (.int 2) false false = .error .valueError := by
  constructor <;> decide +kernel

/-- C15. Triangle inequality of the raw distance (words may even be one character too short to
have an n-gram). -/
theorem C15_triangle {a b c : List Char} (ha : Clean a) (hb : Clean b) (hc : Clean c)
    {n : ℤ} (hn : 2 ≤ n) (hla : n ≤ (a.length : ℤ) + 3) (hlb : n ≤ (b.length : ℤ) + 3)
    (hlc : n ≤ (c.length : ℤ) + 3) {x y z : ℚ}
    (hx : nmd (.str a) (.str b) (.int n) false false = .ok x)
    (hy : nmd (.str b) (.str c) (.int n) false false = .ok y)
    (hz : nmd (.str a) (.str c) (.int n) false false = .ok z) :
    z ≤ x + y := by
  rw [nmd_valid ha hb hn, countInt_eq_count hn hla, countInt_eq_count hn hlb] at hx
  rw [nmd_valid hb hc hn, countInt_eq_count hn hlb, countInt_eq_count hn hlc] at hy
  rw [nmd_valid ha hc hn, countInt_eq_count hn hla, countInt_eq_count hn hlc] at hz
  simp only [Bool.false_eq_true, if_false] at hx hy hz
  injection hx with hx; injection hy with hy; injection hz with hz
  push_cast at hx hy hz
  have := locDist_triangle (located n.toNat a) (located n.toNat b) (located n.toNat c)
  simp only [length_located] at this
  linarith

example : nmd (.str "ab".toList) (.str "abc".toList) (.int 2) false false = .ok (19 / 6) ∧
    nmd (.str "abc".toList) (.str "bc".toList) (.int 2) false false = .ok (19 / 6) ∧
    nmd (.str "ab".toList) (.str "bc".toList) (.int 2) false false = .ok 6 := by
  refine ⟨?_, ?_, ?_⟩ <;> decide +kernel

/-- The restriction to long enough words is needed: through a very short middle word the
"distance" is smaller. -/
example : nmd (.str "aaaaaa".toList) (.str "".toList) (.int 7) false false = .ok (-2) ∧
    nmd (.str "".toList) (.str "bbbbbb".toList) (.int 7) false false = .ok (-2) ∧
    nmd (.str "aaaaaa".toList) (.str "bbbbbb".toList) (.int 7) false false = .ok 4 := by
  refine ⟨?_, ?_, ?_⟩ <;> decide +kernel

/-- C16. Distance and similarity add up to the total number of n-grams (as counted by the code:
`len + 3 - n` per word); the normalised values are defined together and add up to 1. -/
theorem C16_complement {a b : List Char} (ha : Clean a) (hb : Clean b) {n : ℤ} (hn : 2 ≤ n) :
    (∃ d s, nmd (.str a) (.str b) (.int n) false false = .ok d ∧
      nmd (.str a) (.str b) (.int n) true false = .ok s ∧
      d + s = ((a.length : ℚ) + 3 - n) + ((b.length : ℚ) + 3 - n)) ∧
    ((nmd (.str a) (.str b) (.int n) false true = .error .zeroDivisionError ∧
      nmd (.str a) (.str b) (.int n) true true = .error .zeroDivisionError) ∨
     ∃ d s, nmd (.str a) (.str b) (.int n) false true = .ok d ∧
      nmd (.str a) (.str b) (.int n) true true = .ok s ∧ d + s = 1) := by
  simp only [nmd_valid ha hb hn]
  refine ⟨⟨_, _, rfl, rfl, ?_⟩, ?_⟩
  · simp only [Bool.false_eq_true, if_false, if_true, countInt]; push_cast; ring
  · by_cases h : countInt n a + countInt n b = 0
    · left; simp [h]
    · right
      simp only [h, Bool.false_eq_true, if_false, if_true]
      refine ⟨_, _, rfl, rfl, ?_⟩
      have hq : (countInt n a : ℚ) + countInt n b ≠ 0 := by exact_mod_cast h
      rw [← add_div, sub_add_cancel, div_self hq]

example : nmd (.str "ab".toList) (.str "abc".toList) (.int 2) false true = .ok (19 / 42) ∧
    nmd (.str "ab".toList) (.str "abc".toList) (.int 2) true true = .ok (23 / 42) := by
  refine ⟨?_, ?_⟩ <;> decide +kernel

/-- C17. Normalised values lie in `[0, 1]` whenever they are defined, for all `n`; raw values lie
between 0 and the total count (and the similarity is at most twice the smaller count) once
`n ≤ len + 3` for both words. -/
theorem C17_range {a b : List Char} (ha : Clean a) (hb : Clean b) {n : ℤ} (hn : 2 ≤ n)
    (invert : Bool) {r : ℚ} :
    (nmd (.str a) (.str b) (.int n) invert true = .ok r → 0 ≤ r ∧ r ≤ 1) ∧
    (n ≤ (a.length : ℤ) + 3 → n ≤ (b.length : ℤ) + 3 →
      nmd (.str a) (.str b) (.int n) invert false = .ok r →
      0 ≤ r ∧ r ≤ count n.toNat a + count n.toNat b ∧
      (invert = true → r ≤ 2 * min (count n.toNat a : ℚ) (count n.toNat b))) := by
  constructor
  · intro h
    rw [nmd_valid ha hb hn] at h
    simp only [if_true] at h
    by_cases h0 : countInt n a + countInt n b = 0
    · simp [h0] at h
    simp only [h0, if_false] at h
    injection h with h
    have hq : (countInt n a : ℚ) + countInt n b ≠ 0 := by exact_mod_cast h0
    by_cases hpos : 0 ≤ countInt n a ∧ 0 ≤ countInt n b
    · have h1 : n ≤ (a.length : ℤ) + 3 := by unfold countInt at hpos; omega
      have h2 : n ≤ (b.length : ℤ) + 3 := by unfold countInt at hpos; omega
      rw [countInt_eq_count hn h1, countInt_eq_count hn h2] at h hq
      push_cast at h hq
      have g1 := locSim_nonneg (located n.toNat a) (located n.toNat b)
      have g2 := locSim_le_add (located n.toNat a) (located n.toNat b)
      simp only [length_located] at g2
      have h3 : (0 : ℚ) < (count n.toNat a : ℚ) + count n.toNat b := by
        have : (0 : ℚ) ≤ (count n.toNat a : ℚ) + count n.toNat b := by positivity
        exact lt_of_le_of_ne this hq.symm
      rw [← h]
      cases invert
      · simp only [Bool.false_eq_true, if_false]
        rw [div_le_one h3]
        exact ⟨div_nonneg (by linarith) h3.le, by linarith⟩
      · simp only [if_true]
        rw [div_le_one h3]
        exact ⟨div_nonneg g1 h3.le, g2⟩
    · have hs : locSim (located n.toNat a) (located n.toNat b) = 0 := by
        rw [not_and_or, not_le, not_le] at hpos
        rcases hpos with hp | hp
        · rw [located_eq_nil hp.le]; simp
        · rw [located_eq_nil hp.le]; simp
      rw [hs] at h
      rw [← h]
      cases invert
      · simp [div_self hq]
      · simp
  · intro h1 h2 h
    rw [nmd_valid ha hb hn, countInt_eq_count hn h1, countInt_eq_count hn h2] at h
    simp only [Bool.false_eq_true, if_false] at h
    injection h with h
    have g1 := locSim_nonneg (located n.toNat a) (located n.toNat b)
    have g2 := locSim_le_add (located n.toNat a) (located n.toNat b)
    have g3 := locSim_le_two_mul (located n.toNat a) (located n.toNat b)
    have g4 := locSim_le_two_mul' (located n.toNat a) (located n.toNat b)
    simp only [length_located] at g2 g3 g4
    rw [← h]
    cases invert
    · simp only [Bool.false_eq_true, if_false]
      push_cast
      exact ⟨by linarith, by linarith, by simp⟩
    · simp only [if_true]
      refine ⟨g1, g2, fun _ => ?_⟩
      rw [mul_min_of_nonneg _ _ (by norm_num)]
      exact le_min g3 g4

example : nmd (.str "a".toList) (.str "abab".toList) (.int 2) true false = .ok 2 ∧
    nmd (.str "a".toList) (.str "abab".toList) (.int 2) false true = .ok (5 / 7) ∧
    nmd (.str "a".toList) (.str "abcdefg".toList) (.int 5) false true = .ok 1 := by
  refine ⟨?_, ?_, ?_⟩ <;> decide +kernel

/-- C18. For words with an n-gram, the normalised distance is 1 (and the similarity is 0)
exactly when the words have no n-gram in common. -/
theorem C18_one_iff_disjoint {a b : List Char} (ha : Clean a) (hb : Clean b) {n : ℤ} (hn : 2 ≤ n)
    (hla : HasGram n a) (hlb : HasGram n b) :
    (nmd (.str a) (.str b) (.int n) false true = .ok 1 ↔
      ∀ g, g ∈ grams n.toNat a → g ∉ grams n.toNat b) ∧
    (nmd (.str a) (.str b) (.int n) true false = .ok 0 ↔
      ∀ g, g ∈ grams n.toNat a → g ∉ grams n.toNat b) := by
  have hd : Disjoint (gramSet (located n.toNat a)) (gramSet (located n.toNat b)) ↔
      ∀ g, g ∈ grams n.toNat a → g ∉ grams n.toNat b := by
    rw [gramSet_located, gramSet_located, Finset.disjoint_left]
    simp only [List.mem_toFinset]
  rw [← hd, ← locSim_eq_zero_iff (unitLocated_located _ _) (unitLocated_located _ _)]
  unfold HasGram at hla hlb
  rw [nmd_valid ha hb hn, nmd_valid ha hb hn,
    countInt_eq_count hn (show n ≤ (a.length : ℤ) + 3 by omega),
    countInt_eq_count hn (show n ≤ (b.length : ℤ) + 3 by omega)]
  have hc : 1 ≤ count n.toNat a := by rw [count_eq]; omega
  have hne : (count n.toNat a : ℤ) + (count n.toNat b : ℤ) ≠ 0 := by omega
  have hq : (count n.toNat a : ℚ) + (count n.toNat b : ℚ) ≠ 0 := by exact_mod_cast hne
  constructor
  · simp only [hne, Bool.false_eq_true, if_false, if_true]
    push_cast
    constructor
    · intro h
      injection h with h
      rw [div_eq_one_iff_eq hq] at h
      linarith
    · intro h
      rw [h, sub_zero, div_self hq]
  · simp only [Bool.false_eq_true, if_false, if_true]
    constructor
    · intro h; injection h
    · intro h; rw [h]

example : nmd (.str "abc".toList) (.str "xyz".toList) (.int 2) false true = .ok 1 ∧
    nmd (.str "abc".toList) (.str "xyc".toList) (.int 2) false true ≠ .ok 1 := by
  refine ⟨?_, ?_⟩ <;> decide +kernel

/-- C19. The *normalised* distance is not a metric: the triangle inequality fails. -/
theorem C19_normalized_not_metric :
    ∃ a b c : List Char, Clean a ∧ Clean b ∧ Clean c ∧ ∃ x y z : ℚ,
      nmd (.str a) (.str b) (.int 2) false true = .ok x ∧
      nmd (.str b) (.str c) (.int 2) false true = .ok y ∧
      nmd (.str a) (.str c) (.int 2) false true = .ok z ∧ x + y < z := by
  refine ⟨"aaaa".toList, "aaaabbbb".toList, "bbbb".toList,
    ⟨by decide, by decide⟩, ⟨by decide, by decide⟩, ⟨by decide, by decide⟩,
    27 / 56, 27 / 56, 1, ?_, ?_, ?_, by norm_num⟩
  all_goals decide +kernel

end Verif
