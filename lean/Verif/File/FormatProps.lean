import Verif.File.Format
import Mathlib.Tactic.FieldSimp

/-!
# Properties of `format_bytes` and `format_seconds` (C122, C123)
-/

namespace Verif
namespace File

open FileSpec

theorem byteLoop_spec (fuel u : ℕ) (num : ℚ) (h : 1 ≤ num) :
    ∃ k, (byteLoop fuel u num) = (num / 1024 ^ k, u + k) ∧ k ≤ fuel ∧
      (1024 : ℚ) ^ k ≤ num ∧ (k < fuel → num < 1024 ^ (k + 1)) := by
  induction fuel generalizing u num with
  | zero => exact ⟨0, by simp [byteLoop], le_rfl, by simpa using h, by simp⟩
  | succ fuel ih =>
    unfold byteLoop
    by_cases h1 : 1024 ≤ num
    · rw [if_pos h1]
      obtain ⟨k, e, hk, h2, h3⟩ := ih (u + 1) (num / 1024) (by rw [le_div_iff₀ (by norm_num)]; linarith)
      refine ⟨k + 1, ?_, by omega, ?_, fun h4 => ?_⟩
      · rw [e, pow_succ', div_div]
        congr 1
        omega
      · rw [le_div_iff₀ (by norm_num)] at h2
        rwa [pow_succ]
      · have := h3 (by omega)
        rw [div_lt_iff₀ (by norm_num)] at this
        rwa [pow_succ]
    · rw [if_neg h1]
      refine ⟨0, by simp, by omega, by simpa using h, fun _ => ?_⟩
      simpa using h1

/-- `format_bytes(n)` never raises. For `|n| ≥ 2` it shows a decimal number and the largest of the
nine units that is not larger than `|n|`; the number shown is `|n|` in that unit up to 1/200. -/
theorem C122_format_bytes (n : ℤ) (hn : 2 ≤ n.natAbs) :
    ∃ text k unit, formatBytes n = .ok (text ++ ' ' :: unit.toList) ∧
      byteUnits[k]? = some unit ∧ isDecimal text ∧
      |decimalOf text * 1024 ^ k - n.natAbs| ≤ 1024 ^ k / 200 ∧
      1024 ^ k ≤ n.natAbs ∧ (k < 8 → n.natAbs < 1024 ^ (k + 1)) := by
  have h1 : (1 : ℚ) ≤ (n.natAbs : ℚ) := by exact_mod_cast (by omega : 1 ≤ n.natAbs)
  obtain ⟨k, e, hk, h2, h3⟩ := byteLoop_spec 8 0 (n.natAbs : ℚ) h1
  have hp : (0 : ℚ) < 1024 ^ k := by positivity
  obtain ⟨text, e2, hd, hv⟩ := showNum_spec (num := (n.natAbs : ℚ) / 1024 ^ k)
    (div_nonneg (by linarith) hp.le) (byteUnits[k]?.getD "").toList
  have hu : ∃ u, byteUnits[k]? = some u := by
    have : k < byteUnits.length := by unfold byteUnits; simp; omega
    exact ⟨_, List.getElem?_eq_getElem this⟩
  obtain ⟨u, hu⟩ := hu
  refine ⟨text, k, u, ?_, hu, hd, ?_, by exact_mod_cast h2, fun h => by exact_mod_cast h3 h⟩
  · unfold formatBytes
    simp only [if_neg (by omega : ¬ n.natAbs = 0), if_neg (by omega : ¬ n.natAbs = 1), e, zero_add, hu]
    rw [hu] at e2
    exact congrArg Except.ok e2
  · have : decimalOf text * 1024 ^ k - n.natAbs = (decimalOf text - n.natAbs / 1024 ^ k) * 1024 ^ k := by
      field_simp
    rw [this, abs_mul, abs_of_pos hp]
    calc _ ≤ 1 / 200 * (1024 : ℚ) ^ k := by gcongr
      _ = (1024 : ℚ) ^ k / 200 := by ring

example : formatBytes 1536 = .ok "1.50 KiB".toList := by decide +kernel
example : formatBytes (-7) = .ok "7 Bytes".toList := by decide +kernel

/-- The number shown is rounded after the unit is chosen: `1048575` is shown as `1024.00 KiB`. -/
theorem C122_not_below_1024 : formatBytes 1048575 = .ok "1024.00 KiB".toList := by decide +kernel

/-- The units of `format_seconds` with their sizes in seconds and their singulars. -/
def timeUnits : List (String × String × ℚ) :=
  [("second", "seconds", 1), ("minute", "minutes", 60), ("hour", "hours", 3600),
    ("day", "days", 86400)]

/-- What the loop of `format_seconds` computes. -/
theorem secondLoop_spec (x : ℚ) :
    (604800 ≤ x ∧ secondLoop [60, 60, 24, 7] 0 x = .error .indexError) ∨
    (x < 604800 ∧ ∃ k one many size, timeUnits[k]? = some (one, many, size) ∧
      secondUnits[k]? = some many ∧ many.toList.dropLast = one.toList ∧ 0 < size ∧
      secondLoop [60, 60, 24, 7] 0 x = .ok (x / size, k) ∧ (k = 0 ∨ size ≤ x) ∧
      (∀ one' many' size', timeUnits[k + 1]? = some (one', many', size') → x < size')) := by
  simp only [secondLoop]
  by_cases h1 : 60 ≤ x
  · by_cases h2 : 60 ≤ x / 60
    · by_cases h3 : 24 ≤ x / 60 / 60
      · by_cases h4 : 7 ≤ x / 60 / 60 / 24
        · left
          exact ⟨by linarith, by simp [h1, h2, h3, h4]⟩
        · right
          refine ⟨by linarith, 3, "day", "days", 86400, rfl, rfl, by decide +kernel, by norm_num, ?_,
            .inr (by linarith), by intro a b c h; simp [timeUnits] at h⟩
          simp only [h1, h2, h3, h4]
          norm_num
          linarith
      · right
        refine ⟨by linarith, 2, "hour", "hours", 3600, rfl, rfl, by decide +kernel, by norm_num, ?_,
          .inr (by linarith), ?_⟩
        · simp only [h1, h2, h3]
          norm_num
          linarith
        · intro a b c h
          simp [timeUnits] at h
          linarith [h.2.2]
    · right
      refine ⟨by linarith, 1, "minute", "minutes", 60, rfl, rfl, by decide +kernel, by norm_num, ?_,
        .inr (by linarith), ?_⟩
      · simp only [h1, h2]
        norm_num
      · intro a b c h
        simp [timeUnits] at h
        linarith [h.2.2]
  · right
    refine ⟨by linarith, 0, "second", "seconds", 1, rfl, rfl, by decide +kernel, by norm_num, ?_,
      .inl rfl, ?_⟩
    · simp [h1]
    · intro a b c h
      simp [timeUnits] at h
      linarith [h.2.2]

/-- `format_seconds(x)` raises exactly when `x` is a week or more, and then it raises `IndexError`
(the list of names ends with `weeks`, which is never used). -/
theorem C123_raises_iff (x : ℚ) (e : PyErr) :
    formatSeconds x = .error e ↔ 604800 ≤ |x| ∧ e = .indexError := by
  unfold formatSeconds
  simp only
  by_cases h0 : |x| = 0
  · rw [if_pos h0, h0]; simp
  by_cases h1 : |x| = 1
  · rw [if_neg h0, if_pos h1, h1]; simp
  by_cases h2 : |x| < 1
  · rw [if_neg h0, if_neg h1, if_pos h2]
    simp only [reduceCtorEq, false_iff, not_and]
    intro h; linarith
  rw [if_neg h0, if_neg h1, if_neg h2]
  rcases secondLoop_spec |x| with ⟨h3, h4⟩ | ⟨h3, k, one, many, size, -, h4, -, -, h5, -⟩
  · rw [h4]
    simp [h3, eq_comm]
  · rw [h5]
    simp only [h4]
    simp only [reduceCtorEq, false_iff, not_and]
    intro h; linarith

/-- From one second to a week: the largest unit not larger than the time, singular exactly for the
number 1, and the number up to 1/200 of the unit. -/
theorem C123_format_seconds (x : ℚ) (h1 : 1 < |x|) (h2 : |x| < 604800) :
    ∃ text k one many size, timeUnits[k]? = some (one, many, size) ∧
      formatSeconds x =
        .ok (text ++ ' ' :: (if |x| = size then one else many).toList) ∧
      isDecimal text ∧ abs (decimalOf text * size - |x|) ≤ size / 200 ∧ size ≤ |x| ∧
      (∀ one' many' size', timeUnits[k + 1]? = some (one', many', size') → |x| < size') := by
  rcases secondLoop_spec |x| with ⟨h3, h4⟩ | ⟨h3, k, one, many, size, h4, h5, h6, h7, h8, h9, h10⟩
  · linarith
  obtain ⟨text, e2, hd, hv⟩ := showNum_spec (num := |x| / size)
    (div_nonneg (by linarith) h7.le) (if |x| / size = 1 then many.toList.dropLast else many.toList)
  refine ⟨text, k, one, many, size, h4, ?_, hd, ?_, ?_, h10⟩
  · unfold formatSeconds
    simp only [if_neg (by linarith : ¬ |x| = 0), if_neg (by linarith : ¬ |x| = 1),
      if_neg (by linarith : ¬ |x| < 1), h8, h5, e2]
    congr 3
    simp only [div_eq_one_iff_eq h7.ne', h6]
    split <;> rfl
  · have : decimalOf text * size - |x| = (decimalOf text - |x| / size) * size := by
      field_simp
    rw [this, abs_mul, abs_of_pos h7]
    calc _ ≤ 1 / 200 * size := by gcongr
      _ = size / 200 := by ring
  · rcases h9 with rfl | h9
    · have : size = 1 := by
        simp [timeUnits] at h4
        exact h4.2.2.symm
      linarith
    · exact h9

/-- Below one second: two significant figures, that is, an error of at most five percent. -/
theorem C123_below_a_second (x : ℚ) (h0 : 0 < |x|) (h1 : |x| < 1) :
    ∃ text, formatSeconds x = .ok (text ++ " seconds".toList) ∧ isDecimal text ∧
      abs (decimalOf text - |x|) ≤ |x| / 20 := by
  refine ⟨fixed (1 - Int.log 10 |x|).toNat |x|, ?_, fixed_isDecimal _ _, ?_⟩
  · unfold formatSeconds
    simp only [if_neg h0.ne', if_neg h1.ne, if_pos h1]
  · have hl : Int.log 10 |x| ≤ -1 := by
      by_contra hc
      have h3 : (0 : ℤ) ≤ Int.log 10 |x| := by omega
      have := Int.zpow_log_le_self (b := 10) (r := |x|) (by norm_num) h0
      have h4 : (1 : ℚ) ≤ ((10 : ℕ) : ℚ) ^ Int.log 10 |x| := one_le_zpow₀ (by norm_num) h3
      linarith
    have hle := Int.zpow_log_le_self (b := 10) (r := |x|) (by norm_num) h0
    refine (fixed_near (by omega) h0.le).trans ?_
    have e1 : (10 : ℚ) ^ (1 - Int.log 10 |x|).toNat = 10 / ((10 : ℕ) : ℚ) ^ Int.log 10 |x| := by
      rw [← zpow_natCast, Int.toNat_of_nonneg (by omega), zpow_sub₀ (by norm_num)]
      norm_num
    rw [e1]
    have hp : (0 : ℚ) < ((10 : ℕ) : ℚ) ^ Int.log 10 |x| := zpow_pos (by norm_num) _
    calc 1 / (2 * (10 / ((10 : ℕ) : ℚ) ^ Int.log 10 |x|)) = ((10 : ℕ) : ℚ) ^ Int.log 10 |x| / 20 := by
          field_simp; norm_num
      _ ≤ |x| / 20 := by gcongr

example : formatSeconds 5400 = .ok "1.50 hours".toList := by decide +kernel
example : formatSeconds 60 = .ok "1 minute".toList := by decide +kernel
example : formatSeconds (1 / 300) = .ok "0.0033 seconds".toList := by decide +kernel
example : formatSeconds 604799 = .ok "7.00 days".toList := by decide +kernel
example : formatSeconds 604800 = .error .indexError := by decide +kernel

end File
end Verif
