import Verif.File.Model
import Verif.File.Spec
import Mathlib.Tactic.Linarith
import Mathlib.Tactic.IntervalCases
import Mathlib.Data.Nat.Digits.Lemmas
import Mathlib.Tactic.FieldSimp
import Mathlib.Tactic.Positivity
import Mathlib.Data.List.TakeWhile

/-!
# Lemmas about the formatting of numbers
-/

namespace Verif
namespace File

open FileSpec

theorem digitChar_toNat {d : ℕ} (h : d < 10) : (Nat.digitChar d).toNat - '0'.toNat = d := by
  interval_cases d <;> rfl

theorem digitChar_isDigit {d : ℕ} (h : d < 10) : (Nat.digitChar d).isDigit = true := by
  interval_cases d <;> rfl

theorem natOf_foldl (l : List ℕ) (h : ∀ d ∈ l, d < 10) :
    natOf ((l.map Nat.digitChar).reverse) = Nat.ofDigits 10 l := by
  induction l with
  | nil => rfl
  | cons d l ih =>
    have := ih fun x hx => h x (by simp [hx])
    rw [List.map_cons, List.reverse_cons]
    unfold natOf at this ⊢
    rw [List.foldl_append, this]
    simp only [List.foldl_cons, List.foldl_nil, digitChar_toNat (h d (by simp)), Nat.ofDigits_cons]
    omega

theorem natOf_digits (n : ℕ) : natOf (digits n) = n := by
  unfold digits
  split
  · rename_i h; subst h; rfl
  · rw [natOf_foldl _ fun d hd => Nat.digits_lt_base (by norm_num) hd, Nat.ofDigits_digits]

theorem digits_isDigit (n : ℕ) : ∀ c ∈ digits n, c.isDigit = true := by
  unfold digits
  split
  · simp
  · intro c hc
    simp only [List.mem_reverse, List.mem_map] at hc
    obtain ⟨d, hd, rfl⟩ := hc
    exact digitChar_isDigit (Nat.digits_lt_base (by norm_num) hd)

theorem digits_ne_nil (n : ℕ) : digits n ≠ [] := by
  unfold digits
  split
  · simp
  · rename_i h
    simpa [Nat.digits_ne_nil_iff_ne_zero] using h

theorem natOf_replicate (k : ℕ) (l : List Char) : natOf (List.replicate k '0' ++ l) = natOf l := by
  induction k with
  | zero => rfl
  | succ k ih =>
    rw [List.replicate_succ, List.cons_append]
    unfold natOf at ih ⊢
    rw [List.foldl_cons]
    exact ih

theorem natOf_padded (d n : ℕ) : natOf (padded d n) = n := by
  unfold padded
  rw [natOf_replicate, natOf_digits]

theorem padded_length {d n : ℕ} (hd : 1 ≤ d) (h : n < 10 ^ d) : (padded d n).length = d := by
  have : (digits n).length ≤ d := by
    unfold digits
    split
    · simpa using hd
    · rw [List.length_reverse, List.length_map]
      exact (Nat.digits_length_le_iff (by norm_num) n).2 h
  unfold padded
  rw [List.length_append, List.length_replicate]
  omega

theorem padded_isDigit (d n : ℕ) : ∀ c ∈ padded d n, c.isDigit = true := by
  intro c hc
  unfold padded at hc
  rcases List.mem_append.1 hc with h | h
  · rw [List.eq_of_mem_replicate h]; rfl
  · exact digits_isDigit n c h

theorem isDigit_ne {c : Char} (h : c.isDigit = true) : c ≠ '.' := by
  rintro rfl
  exact absurd h (by decide)

theorem decimalOf_digits (n : ℕ) : decimalOf (digits n) = n := by
  have h1 : (digits n).takeWhile (· ≠ '.') = digits n := by
    rw [List.takeWhile_eq_self_iff]
    intro c hc
    simpa using isDigit_ne (digits_isDigit n c hc)
  have h2 : (digits n).dropWhile (· ≠ '.') = [] := by
    rw [List.dropWhile_eq_nil_iff]
    intro c hc
    simpa using isDigit_ne (digits_isDigit n c hc)
  unfold decimalOf
  simp only [h1, h2, natOf_digits]
  simp [natOf]

theorem decimalOf_point (w r : List Char) (h : ∀ c ∈ w, c.isDigit = true) :
    decimalOf (w ++ '.' :: r) = natOf w + natOf r / 10 ^ r.length := by
  have h0 : ∀ c ∈ w, (decide (c ≠ '.')) = true := fun c hc => by
    simpa using isDigit_ne (h c hc)
  have h1 : (w ++ '.' :: r).takeWhile (· ≠ '.') = w := by
    rw [List.takeWhile_append_of_pos h0]
    simp
  have h2 : (w ++ '.' :: r).dropWhile (· ≠ '.') = '.' :: r := by
    rw [List.dropWhile_append_of_pos h0]
    simp
  unfold decimalOf
  simp only [h1, h2, List.drop_succ_cons, List.drop_zero]

theorem decimalOf_fixed {d : ℕ} (hd : 1 ≤ d) (q : ℚ) :
    decimalOf (fixed d q) = roundHalfEven (q * 10 ^ d) / 10 ^ d := by
  unfold fixed
  simp only
  rw [decimalOf_point _ _ (digits_isDigit _), natOf_digits, natOf_padded,
    padded_length hd (Nat.mod_lt _ (by positivity))]
  have h := Nat.div_add_mod (roundHalfEven (q * 10 ^ d)) (10 ^ d)
  have h' : ((10 : ℚ) ^ d) * ((roundHalfEven (q * 10 ^ d) / 10 ^ d : ℕ) : ℚ) +
      ((roundHalfEven (q * 10 ^ d) % 10 ^ d : ℕ) : ℚ) = roundHalfEven (q * 10 ^ d) := by
    exact_mod_cast h
  have hp : (10 : ℚ) ^ d ≠ 0 := by positivity
  field_simp
  linarith

theorem roundHalfEven_near {q : ℚ} (h : 0 ≤ q) : |(roundHalfEven q : ℚ) - q| ≤ 1 / 2 := by
  have h1 := Nat.floor_le h
  have h2 := Nat.lt_floor_add_one q
  unfold roundHalfEven
  simp only
  rw [abs_le]
  split_ifs <;> push_cast <;> constructor <;> linarith

theorem fixed_near {d : ℕ} (hd : 1 ≤ d) {q : ℚ} (h : 0 ≤ q) :
    |decimalOf (fixed d q) - q| ≤ 1 / (2 * 10 ^ d) := by
  rw [decimalOf_fixed hd]
  have hp : (0 : ℚ) < 10 ^ d := by positivity
  have := roundHalfEven_near (mul_nonneg h hp.le)
  have e : (roundHalfEven (q * 10 ^ d) : ℚ) / 10 ^ d - q =
      ((roundHalfEven (q * 10 ^ d) : ℚ) - q * 10 ^ d) / 10 ^ d := by
    field_simp
  rw [e, abs_div, abs_of_pos hp, div_le_div_iff₀ hp (by positivity)]
  nlinarith

theorem fixed_isDecimal (d : ℕ) (q : ℚ) : isDecimal (fixed d q) := by
  unfold fixed isDecimal
  refine ⟨by simp, fun c hc => ?_⟩
  simp only [List.mem_append, List.mem_cons] at hc
  rcases hc with h | h | h
  · exact .inl (digits_isDigit _ c h)
  · exact .inr h
  · exact .inl (padded_isDigit _ _ c h)

/-- What `'%.2f %s'` or `'%d %s'` shows. -/
theorem showNum_spec {num : ℚ} (h : 0 ≤ num) (unit : List Char) :
    ∃ text, showNum num unit = text ++ ' ' :: unit ∧ isDecimal text ∧
      |decimalOf text - num| ≤ 1 / 200 := by
  unfold showNum
  split
  · refine ⟨_, rfl, fixed_isDecimal _ _, (fixed_near (by norm_num) h).trans (by norm_num)⟩
  · rename_i h2
    refine ⟨_, rfl, ⟨digits_ne_nil _, fun c hc => .inl (digits_isDigit _ c hc)⟩, ?_⟩
    rw [decimalOf_digits]
    have : (⌊num⌋₊ : ℚ) - num = 0 := by
      have := not_not.1 h2
      linarith
    rw [this]
    norm_num

end File
end Verif
