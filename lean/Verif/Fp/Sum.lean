import Verif.Fp.Rounding
import Mathlib.Data.ENat.Basic
import Mathlib.Algebra.BigOperators.Ring.List
import Mathlib.Tactic.GCongr
import Mathlib.Tactic.LinearCombination

/-!
# `sum` of floating point numbers

The function `sum` of Python adds from left to right up to version 3.11 and compensates the rounding
errors from version 3.12 on. Here are both, with what the theorems use of either.
-/

namespace Verif
namespace Fp

/-! ## From left to right -/

variable {A : Arith}

theorem arith_zero : A.fl 0 = 0 := by
  have := A.nat 0 (by norm_num)
  simpa using this

theorem arith_nonneg {x : ℚ} (hx : 0 ≤ x) : 0 ≤ A.fl x := by
  have := A.mono hx
  rwa [arith_zero] at this

theorem arith_upper {x : ℚ} (hx : 0 ≤ x) : A.fl x ≤ (1 + A.u) * x := by
  have := abs_le.1 (A.err x)
  rw [abs_of_nonneg hx] at this
  linarith

theorem arith_lower {x : ℚ} (hx : 0 ≤ x) : (1 - A.u) * x ≤ A.fl x := by
  have := abs_le.1 (A.err x)
  rw [abs_of_nonneg hx] at this
  linarith

theorem arith_le_nat {x : ℚ} {n : ℕ} (hn : n ≤ 2 ^ 53) (hx : x ≤ n) : A.fl x ≤ n := by
  have := A.mono hx
  rwa [A.nat n hn] at this

theorem plain_bounds_aux (v : List ℚ) : ∀ s : ℚ, 0 ≤ s → (∀ x ∈ v, 0 ≤ x) →
    (1 - A.u) ^ v.length * (s + v.sum) ≤ v.foldl (fun s x => A.fl (s + x)) s ∧
    v.foldl (fun s x => A.fl (s + x)) s ≤ (1 + A.u) ^ v.length * (s + v.sum) := by
  have hu := A.u_pos
  have hu' := A.u_lt
  induction v with
  | nil => intro s _ _; simp
  | cons a v ih =>
    intro s hs hv
    have ha := hv a (by simp)
    have hv' : ∀ x ∈ v, 0 ≤ x := fun x hx => hv x (by simp [hx])
    have hsum : 0 ≤ v.sum := List.sum_nonneg hv'
    have h0 : 0 ≤ s + a := add_nonneg hs ha
    obtain ⟨i1, i2⟩ := ih (A.fl (s + a)) (arith_nonneg h0) hv'
    have l1 := arith_lower (A := A) h0
    have l2 := arith_upper (A := A) h0
    rw [List.foldl_cons, List.length_cons, List.sum_cons]
    constructor
    · refine le_trans ?_ i1
      rw [pow_succ, mul_assoc]
      refine mul_le_mul_of_nonneg_left ?_ (pow_nonneg (by linarith) _)
      nlinarith
    · refine i2.trans ?_
      rw [pow_succ, mul_assoc]
      refine mul_le_mul_of_nonneg_left ?_ (pow_nonneg (by linarith) _)
      nlinarith

theorem plain_mono_aux {u v : List ℚ} (h : List.Forall₂ (· ≤ ·) u v) {s t : ℚ} (hst : s ≤ t) :
    u.foldl (fun s x => A.fl (s + x)) s ≤ v.foldl (fun s x => A.fl (s + x)) t := by
  induction h generalizing s t with
  | nil => simpa using hst
  | cons hab _ ih => exact ih (A.mono (add_le_add hst hab))

theorem plain_le_aux (l : List ℚ) : ∀ (s : ℚ) (c : ℕ), (∀ x ∈ l, x ≤ 1) → s ≤ c →
    c + l.length ≤ 2 ^ 53 → l.foldl (fun s x => A.fl (s + x)) s ≤ ((c + l.length : ℕ) : ℚ) := by
  induction l with
  | nil => intro s c _ hs _; simpa using hs
  | cons a l ih =>
    intro s c hl hs hc
    rw [List.length_cons] at hc ⊢
    have := ih (A.fl (s + a)) (c + 1) (fun x hx => hl x (by simp [hx])) (by
      apply arith_le_nat (by omega)
      have := hl a (by simp)
      push_cast
      linarith) (by omega)
    rw [List.foldl_cons, show c + (l.length + 1) = c + 1 + l.length by omega]
    exact this

theorem plain_ones_aux (k : ℕ) : ∀ c : ℕ, c + k ≤ 2 ^ 53 →
    (List.replicate k (1 : ℚ)).foldl (fun s x => A.fl (s + x)) (c : ℚ) = ((c + k : ℕ) : ℚ) := by
  induction k with
  | zero => intro c _; simp
  | succ k ih =>
    intro c hc
    rw [List.replicate_succ, List.foldl_cons]
    have : (c : ℚ) + 1 = ((c + 1 : ℕ) : ℚ) := by push_cast; rfl
    rw [this, A.nat _ (by omega), ih _ (by omega)]
    congr 1; omega

theorem plain_zeros_aux (v : List ℚ) (hv : ∀ x ∈ v, x = 0) :
    v.foldl (fun s x => A.fl (s + x)) 0 = 0 := by
  induction v with
  | nil => rfl
  | cons a v ih =>
    rw [List.foldl_cons, hv a (by simp), add_zero, arith_zero]
    exact ih (fun x hx => hv x (by simp [hx]))

/-- An arithmetic together with a function `sum`. -/
structure Rounding extends Arith where
  /-- the length up to which `sum` is known to be accurate -/
  sumMax : ℕ∞
  /-- the length up to which `sum` is known to be monotone -/
  monoMax : ℕ∞
  sum_bounds : ∀ v : List ℚ, (∀ x ∈ v, 0 ≤ x ∧ fl x = x) → (v.length : ℕ∞) ≤ sumMax →
    (1 - u) ^ v.length * v.sum ≤ sum v ∧ sum v ≤ (1 + u) ^ v.length * v.sum
  sum_mono : ∀ v w : List ℚ, (∀ x ∈ v, 0 ≤ x ∧ fl x = x) → (∀ x ∈ w, 0 ≤ x ∧ fl x = x) →
    (v.length : ℕ∞) ≤ monoMax → List.Forall₂ (· ≤ ·) v w → sum v ≤ sum w
  sum_le : ∀ v : List ℚ, (∀ x ∈ v, 0 ≤ x ∧ fl x = x) → (v.length : ℕ∞) ≤ sumMax →
    v.length ≤ 2 ^ 53 → (∀ x ∈ v, x ≤ 1) → sum v ≤ v.length
  sum_ones : ∀ m : ℕ, (m : ℕ∞) ≤ sumMax → m ≤ 2 ^ 53 → sum (List.replicate m 1) = m
  sum_single : ∀ x, fl x = x → sum [x] = x
  sum_zeros : ∀ v : List ℚ, (∀ x ∈ v, x = 0) → sum v = 0
  sum_double : ∀ v : List ℚ, (∀ x ∈ v, 0 ≤ x ∧ fl x = x) → (v.length : ℕ∞) ≤ sumMax →
    sum v ≤ sum (v.map (fun x => fl (x * 2)))

instance : CoeOut Rounding FOps := ⟨fun R => R.toArith.toFOps⟩

/-- Every arithmetic with the sum from left to right. -/
def Arith.plain (A : Arith) : Rounding where
  toArith := { A with sum := plainSum A.fl }
  sumMax := ⊤
  monoMax := ⊤
  sum_bounds := fun v hv _ => by
    have := plain_bounds_aux (A := A) v 0 le_rfl (fun x hx => (hv x hx).1)
    rwa [zero_add] at this
  sum_mono := fun _ _ _ _ _ h => plain_mono_aux h le_rfl
  sum_le := fun v _ _ hl hv => by
    have := plain_le_aux (A := A) v 0 0 hv (by simp) (by omega)
    rwa [Nat.zero_add] at this
  sum_ones := fun m _ hm => by
    have := plain_ones_aux (A := A) m 0 (by omega)
    rw [Nat.zero_add, Nat.cast_zero] at this
    exact this
  sum_single := fun x hx => by simp [plainSum, hx]
  sum_zeros := fun v hv => by
    have := plain_zeros_aux (A := A) v hv
    exact this
  sum_double := fun v hv _ => by
    refine plain_mono_aux ?_ le_rfl
    rw [List.forall₂_map_right_iff]
    refine List.forall₂_same.2 (fun x hx => ?_)
    obtain ⟨h1, h2⟩ := hv x hx
    conv_lhs => rw [← h2]
    exact A.mono (by linarith)

/-! ## With compensation -/

/-- One step of `sum` in Python from 3.12 on (Objects: `builtin_sum`, the algorithm of Neumaier);
the state is the sum and the compensation. -/
def compStep (fl : ℚ → ℚ) (s : ℚ × ℚ) (x : ℚ) : ℚ × ℚ :=
  let t := fl (s.1 + x)
  let e := if |x| ≤ |s.1| then fl (fl (s.1 - t) + x) else fl (fl (x - t) + s.1)
  (t, fl (s.2 + e))

/-- `sum(v)` in Python from 3.12 on. The first number is added to the integer 0. -/
def compSum (fl : ℚ → ℚ) : List ℚ → ℚ
  | [] => 0
  | x :: v =>
    let s := v.foldl (compStep fl) (x, 0)
    if s.2 = 0 then s.1 else fl (s.1 + s.2)

theorem roundEven_nearest (y : ℚ) (n : ℤ) : |(roundEven y : ℚ) - y| ≤ |(n : ℚ) - y| := by
  by_contra h
  push Not at h
  have h1 := roundEven_err y
  have h2 : |((n - roundEven y : ℤ) : ℚ)| < 1 := by
    push_cast
    have : |(n : ℚ) - roundEven y| ≤ |(n : ℚ) - y| + |(roundEven y : ℚ) - y| := by
      rw [show (n : ℚ) - roundEven y = (n - y) - (roundEven y - y) by ring]
      exact abs_sub _ _
    linarith
  have h3 : |n - roundEven y| < 1 := by exact_mod_cast h2
  have h4 : n = roundEven y := by
    rw [Int.abs_lt_one_iff] at h3
    omega
  rw [h4] at h
  exact lt_irrefl _ h

/-- A positive floating point number is a 53-bit multiple of the unit of its binade. -/
theorem float_form {x : ℚ} (hx : 0 < x) (hf : rne x = x) :
    ∃ k : ℤ, x = k * (2 : ℚ) ^ (Int.log 2 x - 52) ∧ 2 ^ 52 ≤ k ∧ k ≤ 2 ^ 53 := by
  obtain ⟨k, h1, h2, h3⟩ := rne_form hx
  exact ⟨k, by rw [← h1, hf], h2, h3⟩

theorem pow_split {e e' : ℤ} (h : e ≤ e') : ∃ d : ℕ, (2 : ℚ) ^ e' = (2 ^ d : ℤ) * (2 : ℚ) ^ e := by
  obtain ⟨d, hd⟩ : ∃ d : ℕ, e' = e + d := ⟨(e' - e).toNat, by omega⟩
  refine ⟨d, ?_⟩
  rw [hd, zpow_add₀ (by norm_num), zpow_natCast]
  push_cast
  ring

/-- The rounding of a positive number is the nearest multiple of its unit. -/
theorem rne_nearest_mul {x : ℚ} (hx : 0 < x) (n : ℤ) :
    |rne x - x| ≤ |n * (2 : ℚ) ^ (Int.log 2 x - 52) - x| := by
  have hp := two_pow_pos (Int.log 2 x - 52)
  have h1 : rne x - x = ((roundEven (x / (2 : ℚ) ^ (Int.log 2 x - 52)) : ℚ) -
      x / (2 : ℚ) ^ (Int.log 2 x - 52)) * (2 : ℚ) ^ (Int.log 2 x - 52) := by
    rw [sub_mul, div_mul_cancel₀ _ hp.ne']
    unfold rne
    rw [abs_of_pos hx]
  have h2 : (n : ℚ) * (2 : ℚ) ^ (Int.log 2 x - 52) - x = ((n : ℚ) -
      x / (2 : ℚ) ^ (Int.log 2 x - 52)) * (2 : ℚ) ^ (Int.log 2 x - 52) := by
    rw [sub_mul, div_mul_cancel₀ _ hp.ne']
  rw [h1, h2, abs_mul, abs_mul]
  exact mul_le_mul_of_nonneg_right (roundEven_nearest _ _) (abs_nonneg _)

/-- The rounding error of a sum is no larger than the smaller number. -/
theorem sum_err_le {a b : ℚ} (ha : 0 < a) (hb : 0 ≤ b) (hfa : rne a = a) :
    |rne (a + b) - (a + b)| ≤ b := by
  have hs : 0 < a + b := by linarith
  obtain ⟨k, hk, -, -⟩ := float_form ha hfa
  have hlog : Int.log 2 a ≤ Int.log 2 (a + b) := Int.log_mono_right ha (by linarith)
  rcases eq_or_lt_of_le hlog with he | hlt
  · have := rne_nearest_mul hs k
    rw [← he, ← hk] at this
    rwa [show a - (a + b) = -b by ring, abs_neg, abs_of_nonneg hb] at this
  · -- a power of two lies between
    obtain ⟨-, h2⟩ := log_bounds ha
    obtain ⟨h3, -⟩ := log_bounds hs
    have h4 : (2 : ℚ) ^ (Int.log 2 a + 1) ≤ (2 : ℚ) ^ Int.log 2 (a + b) :=
      zpow_le_zpow_right₀ (by norm_num) (by omega)
    have := rne_nearest_mul hs (2 ^ 52)
    rw [pow_52] at this
    refine this.trans ?_
    rw [abs_le]
    constructor <;> linarith

/-- Adding two floating point numbers, the larger one first, the rounding error is computed
exactly. -/
theorem fast_two_sum {a b : ℚ} (hb : 0 ≤ b) (hab : b ≤ a) (hfa : rne a = a) (hfb : rne b = b) :
    rne (rne (a - rne (a + b)) + b) = a + b - rne (a + b) := by
  rcases eq_or_lt_of_le hb with h0 | hb'
  · subst h0
    simp [hfa, rne_zero]
  have ha : 0 < a := hb'.trans_le hab
  have hs : 0 < a + b := by linarith
  obtain ⟨ka, hka, ka1, ka2⟩ := float_form ha hfa
  obtain ⟨kb, hkb, kb1, kb2⟩ := float_form hb' hfb
  obtain ⟨kt, hkt, -, -⟩ := rne_form hs
  have hl1 : Int.log 2 b ≤ Int.log 2 a := Int.log_mono_right hb' hab
  have hl2 : Int.log 2 a ≤ Int.log 2 (a + b) := Int.log_mono_right ha (by linarith)
  have herr := sum_err_le ha hb hfa
  have hge : a ≤ rne (a + b) := by
    have := rne_mono (show a ≤ a + b by linarith)
    rwa [hfa] at this
  have hle : rne (a + b) ≤ 2 * a := by
    have h := rne_mono (show a + b ≤ 2 * a by linarith)
    have h2 : rne (2 * a) = 2 * a := by
      have := rne_exact ka (Int.log 2 a - 52 + 1) (by rw [abs_of_nonneg (by omega)]; exact ka2)
      rw [zpow_add₀ (by norm_num), zpow_one, ← mul_assoc, ← hka] at this
      rwa [mul_comm]
    rwa [h2] at h
  -- the difference is exact
  have hd : rne (a - rne (a + b)) = a - rne (a + b) := by
    obtain ⟨d, hd⟩ := pow_split (show Int.log 2 a - 52 ≤ Int.log 2 (a + b) - 52 by omega)
    have he : a - rne (a + b) = ((ka - kt * 2 ^ d : ℤ) : ℚ) * (2 : ℚ) ^ (Int.log 2 a - 52) := by
      rw [hkt, hd]
      push_cast
      linear_combination hka
    rw [he]
    apply rne_exact
    have hp := two_pow_pos (Int.log 2 a - 52)
    have h1 : ((ka - kt * 2 ^ d : ℤ) : ℚ) * (2 : ℚ) ^ (Int.log 2 a - 52) ≤ 0 := by
      rw [← he]; linarith
    have h2 : ((-ka : ℤ) : ℚ) * (2 : ℚ) ^ (Int.log 2 a - 52) ≤
        ((ka - kt * 2 ^ d : ℤ) : ℚ) * (2 : ℚ) ^ (Int.log 2 a - 52) := by
      rw [← he]
      push_cast
      rw [neg_mul, ← hka]
      linarith
    have h3 : (-ka : ℤ) ≤ ka - kt * 2 ^ d := by
      have := le_of_mul_le_mul_right h2 hp
      exact_mod_cast this
    have h4 : ka - kt * 2 ^ d ≤ 0 := by
      have : ((ka - kt * 2 ^ d : ℤ) : ℚ) ≤ 0 := by
        by_contra h
        push Not at h
        have := mul_pos h hp
        linarith
      exact_mod_cast this
    rw [abs_le]
    constructor <;> omega
  rw [hd, show a - rne (a + b) + b = a + b - rne (a + b) by ring]
  -- and so is the error
  obtain ⟨d1, hd1⟩ := pow_split (show Int.log 2 b - 52 ≤ Int.log 2 a - 52 by omega)
  obtain ⟨d2, hd2⟩ := pow_split (show Int.log 2 b - 52 ≤ Int.log 2 (a + b) - 52 by omega)
  have he : a + b - rne (a + b) =
      ((ka * 2 ^ d1 + kb - kt * 2 ^ d2 : ℤ) : ℚ) * (2 : ℚ) ^ (Int.log 2 b - 52) := by
    have hka' := hka
    rw [hd1] at hka'
    rw [hkt, hd2]
    push_cast at hka' ⊢
    linear_combination hka' + hkb
  rw [he]
  apply rne_exact
  have hp := two_pow_pos (Int.log 2 b - 52)
  have h1 : |((ka * 2 ^ d1 + kb - kt * 2 ^ d2 : ℤ) : ℚ)| * (2 : ℚ) ^ (Int.log 2 b - 52) ≤
      kb * (2 : ℚ) ^ (Int.log 2 b - 52) := by
    rw [← abs_of_pos hp, ← abs_mul, abs_of_pos hp, ← he, ← hkb, abs_sub_comm]
    exact herr
  have h2 := le_of_mul_le_mul_right h1 hp
  have h3 : |ka * 2 ^ d1 + kb - kt * 2 ^ d2| ≤ kb := by exact_mod_cast h2
  exact h3.trans kb2

/-- One step: the error of the addition is known exactly. -/
theorem compStep_eq {s : ℚ × ℚ} {x : ℚ} (hs : 0 ≤ s.1) (hfs : rne s.1 = s.1) (hx : 0 ≤ x)
    (hfx : rne x = x) :
    compStep rne s x = (rne (s.1 + x), rne (s.2 + (s.1 + x - rne (s.1 + x)))) := by
  unfold compStep
  change (rne (s.1 + x), rne (s.2 + if |x| ≤ |s.1| then rne (rne (s.1 - rne (s.1 + x)) + x)
    else rne (rne (x - rne (s.1 + x)) + s.1))) = _
  split
  · rename_i h
    rw [abs_of_nonneg hs, abs_of_nonneg hx] at h
    rw [fast_two_sum hx h hfs hfx]
  · rename_i h
    rw [abs_of_nonneg hs, abs_of_nonneg hx] at h
    have := fast_two_sum hs (le_of_not_ge h) hfx hfs
    rw [add_comm x s.1] at this
    rw [this]

/-- What holds of the state after `k` additions, `S` being the exact sum. -/
structure CompInv (k : ℕ) (S : ℚ) (s : ℚ × ℚ) : Prop where
  nn : 0 ≤ s.1
  float : rne s.1 = s.1
  nnS : 0 ≤ S
  hi : |S - s.1| ≤ 2 * k * 2⁻¹ ^ 53 * S
  lo : |s.2 - (S - s.1)| ≤ 4 * k ^ 2 * (2⁻¹ ^ 53) ^ 2 * S

theorem CompInv.step {k : ℕ} {S x : ℚ} {s : ℚ × ℚ} (h : CompInv k S s) (hk : k ≤ 2 ^ 20)
    (hx : 0 ≤ x) (hfx : rne x = x) : CompInv (k + 1) (S + x) (compStep rne s x) := by
  obtain ⟨nn, hf, nnS, hi, lo⟩ := h
  rw [compStep_eq nn hf hx hfx]
  have hk' : (k : ℚ) ≤ 2 ^ 20 := by exact_mod_cast hk
  have hk0 : (0 : ℚ) ≤ k := Nat.cast_nonneg _
  have e1 := rne_err (s.1 + x)
  rw [abs_of_nonneg (add_nonneg nn hx)] at e1
  set t := rne (s.1 + x) with ht
  have e2 := rne_err (s.2 + (s.1 + x - t))
  set c := rne (s.2 + (s.1 + x - t)) with hc
  set u : ℚ := 2⁻¹ ^ 53 with hu
  have hu0 : 0 < u := by rw [hu]; positivity
  have hu1 : u * 2 ^ 42 ≤ 1 := by rw [hu]; norm_num
  have hku : k * u * 2 ≤ 1 := by nlinarith
  have hkku : (k : ℚ) ^ 2 * u ≤ 1 := by
    have : (k : ℚ) ^ 2 ≤ 2 ^ 40 := by nlinarith
    nlinarith
  have hS' : 0 ≤ S + x := by linarith
  have g1 : s.1 + x ≤ 2 * (S + x) := by
    have := (abs_le.1 hi).1
    have h2 : 2 * k * u * S ≤ S := by nlinarith
    linarith
  have g2 : |S + x - t| ≤ 2 * (k + 1) * u * (S + x) := by
    have h1 : |S + x - t| ≤ |S - s.1| + |t - (s.1 + x)| := by
      rw [show S + x - t = (S - s.1) - (t - (s.1 + x)) by ring]
      exact abs_sub _ _
    have h2 : u * (s.1 + x) ≤ u * (2 * (S + x)) := mul_le_mul_of_nonneg_left g1 hu0.le
    have h3 : 2 * k * u * S ≤ 2 * k * u * (S + x) :=
      mul_le_mul_of_nonneg_left (by linarith) (by positivity)
    calc |S + x - t| ≤ 2 * k * u * (S + x) + u * (2 * (S + x)) := by linarith
      _ = _ := by ring
  have lo' : |s.2 - (S - s.1)| ≤ 4 * k ^ 2 * u ^ 2 * (S + x) :=
    lo.trans (mul_le_mul_of_nonneg_left (by linarith) (by positivity))
  have g3 : |s.2 + (s.1 + x - t)| ≤ 2 * (k + 1) * u * (S + x) + 4 * k ^ 2 * u ^ 2 * (S + x) := by
    rw [show s.2 + (s.1 + x - t) = (S + x - t) + (s.2 - (S - s.1)) by ring]
    exact (abs_add_le _ _).trans (add_le_add g2 lo')
  refine ⟨?_, ?_, hS', ?_, ?_⟩
  · exact rne_nonneg (add_nonneg nn hx)
  · exact rne_idem _
  · push_cast
    exact g2
  · change |c - (S + x - t)| ≤ _
    have h1 : |c - (S + x - t)| ≤ |c - (s.2 + (s.1 + x - t))| + |s.2 - (S - s.1)| := by
      rw [show c - (S + x - t) = (c - (s.2 + (s.1 + x - t))) + (s.2 - (S - s.1)) by ring]
      exact abs_add_le _ _
    have h2 := mul_le_mul_of_nonneg_left g3 hu0.le
    have h3 : |c - (S + x - t)| ≤
        (u ^ 2 * (S + x)) * (4 * k ^ 2 + 2 * (k + 1) + 4 * (k ^ 2 * u)) := by
      calc |c - (S + x - t)| ≤ u * (2 * (k + 1) * u * (S + x) + 4 * k ^ 2 * u ^ 2 * (S + x)) +
            4 * k ^ 2 * u ^ 2 * (S + x) := by linarith
        _ = _ := by ring
    refine h3.trans ?_
    push_cast
    rw [show (4 : ℚ) * (k + 1) ^ 2 * u ^ 2 * (S + x) = (u ^ 2 * (S + x)) * (4 * (k + 1) ^ 2) by ring]
    refine mul_le_mul_of_nonneg_left ?_ (by positivity)
    nlinarith

theorem CompInv.fold (v : List ℚ) : ∀ {k : ℕ} {S : ℚ} {s : ℚ × ℚ}, CompInv k S s →
    k + v.length ≤ 2 ^ 20 → (∀ x ∈ v, 0 ≤ x ∧ rne x = x) →
    CompInv (k + v.length) (S + v.sum) (v.foldl (compStep rne) s) := by
  induction v with
  | nil => intro k S s h _ _; simpa using h
  | cons a v ih =>
    intro k S s h hl hv
    rw [List.length_cons] at hl ⊢
    have := ih (h.step (by omega) (hv a (by simp)).1 (hv a (by simp)).2) (by omega)
      (fun x hx => hv x (by simp [hx]))
    rw [List.foldl_cons, List.sum_cons, ← add_assoc S, show k + (v.length + 1) = k + 1 + v.length by omega]
    exact this

/-- The compensated sum is the rounding of a number very close to the exact sum. -/
theorem comp_close {v : List ℚ} (hv : ∀ x ∈ v, 0 ≤ x ∧ rne x = x) (hl : v.length ≤ 2 ^ 20)
    (hne : v ≠ []) : ∃ y, compSum rne v = rne y ∧ |y - v.sum| ≤ 2⁻¹ ^ 64 * v.sum := by
  cases v with
  | nil => exact absurd rfl hne
  | cons a v =>
    have ha := hv a (by simp)
    have h0 : CompInv 0 a (a, 0) := ⟨ha.1, ha.2, ha.1, by simp, by simp⟩
    rw [List.length_cons] at hl
    have h := h0.fold v (by omega) (fun x hx => hv x (by simp [hx]))
    rw [← List.sum_cons, Nat.zero_add] at h
    obtain ⟨-, hf, nnS, -, lo⟩ := h
    refine ⟨(v.foldl (compStep rne) (a, 0)).1 + (v.foldl (compStep rne) (a, 0)).2, ?_, ?_⟩
    · unfold compSum
      dsimp only
      split
      · rename_i hz
        rw [hz, add_zero, hf]
      · rfl
    · rw [show (v.foldl (compStep rne) (a, 0)).1 + (v.foldl (compStep rne) (a, 0)).2 -
        (a :: v).sum = (v.foldl (compStep rne) (a, 0)).2 -
        ((a :: v).sum - (v.foldl (compStep rne) (a, 0)).1) by ring]
      refine lo.trans (mul_le_mul_of_nonneg_right ?_ nnS)
      have hk : (v.length : ℚ) ≤ 2 ^ 20 := by exact_mod_cast (by omega : v.length ≤ 2 ^ 20)
      have hk0 : (0 : ℚ) ≤ v.length := Nat.cast_nonneg _
      have : (v.length : ℚ) ^ 2 ≤ 2 ^ 40 := by nlinarith
      calc (4 : ℚ) * v.length ^ 2 * (2⁻¹ ^ 53) ^ 2 ≤ 4 * 2 ^ 40 * (2⁻¹ ^ 53) ^ 2 := by gcongr
        _ ≤ 2⁻¹ ^ 64 := by norm_num

theorem comp_single (x : ℚ) : compSum rne [x] = x := by simp [compSum]

/-- Two numbers: both sums agree. -/
theorem comp_pair {a b : ℚ} (ha : 0 ≤ a) (hfa : rne a = a) (hb : 0 ≤ b) (hfb : rne b = b) :
    compSum rne [a, b] = rne (a + b) := by
  have h := compStep_eq (s := (a, 0)) ha hfa hb hfb
  have hE : rne (0 + (a + b - rne (a + b))) = a + b - rne (a + b) := by
    rw [zero_add]
    rcases le_total b a with hab | hab
    · rw [← fast_two_sum hb hab hfa hfb, rne_idem]
    · have := fast_two_sum ha hab hfb hfa
      rw [add_comm b a] at this
      rw [← this, rne_idem]
  dsimp only at h
  rw [hE] at h
  unfold compSum
  simp only [List.foldl_cons, List.foldl_nil, h]
  split
  · rfl
  · change rne _ = _
    rw [add_sub_cancel]

theorem comp_bounds {v : List ℚ} (hv : ∀ x ∈ v, 0 ≤ x ∧ rne x = x) (hl : v.length ≤ 2 ^ 20) :
    (1 - (2⁻¹ : ℚ) ^ 53) ^ v.length * v.sum ≤ compSum rne v ∧
    compSum rne v ≤ (1 + (2⁻¹ : ℚ) ^ 53) ^ v.length * v.sum := by
  match v, hv, hl with
  | [], _, _ => simp [compSum]
  | [x], hv, _ =>
    have := (hv x (by simp)).1
    rw [comp_single]
    simp only [List.length_singleton, pow_one, List.sum_singleton]
    constructor <;> nlinarith [show (0 : ℚ) < 2⁻¹ ^ 53 by positivity]
  | a :: b :: v, hv, hl =>
    obtain ⟨y, h1, h2⟩ := comp_close hv hl (by simp)
    have hS : 0 ≤ (a :: b :: v).sum := List.sum_nonneg (fun x hx => (hv x hx).1)
    have hlen : 2 ≤ (a :: b :: v).length := by simp
    rw [h1]
    generalize (a :: b :: v).sum = S at *
    generalize (a :: b :: v).length = n at *
    have hy := abs_le.1 h2
    have hy0 : 0 ≤ y := by
      have : (2⁻¹ : ℚ) ^ 64 * S ≤ S := by nlinarith [show (2⁻¹ : ℚ) ^ 64 ≤ 1 by norm_num]
      linarith
    have he := abs_le.1 (rne_err y)
    rw [abs_of_nonneg hy0] at he
    constructor
    · have hp : (1 - (2⁻¹ : ℚ) ^ 53) ^ n ≤ (1 - (2⁻¹ : ℚ) ^ 53) ^ 2 :=
        pow_le_pow_of_le_one (by norm_num) (by norm_num) hlen
      have h3 : (1 - (2⁻¹ : ℚ) ^ 53) ^ n * S ≤ (1 - (2⁻¹ : ℚ) ^ 53) ^ 2 * S :=
        mul_le_mul_of_nonneg_right hp hS
      have h4 : (1 - (2⁻¹ : ℚ) ^ 53) * ((1 - (2⁻¹ : ℚ) ^ 64) * S) ≤ (1 - (2⁻¹ : ℚ) ^ 53) * y :=
        mul_le_mul_of_nonneg_left (by linarith) (by norm_num)
      have h5 : (1 - (2⁻¹ : ℚ) ^ 53) ^ 2 * S ≤ (1 - (2⁻¹ : ℚ) ^ 53) * ((1 - (2⁻¹ : ℚ) ^ 64) * S) := by
        rw [← mul_assoc]
        exact mul_le_mul_of_nonneg_right (by norm_num) hS
      linarith
    · have hp : (1 + (2⁻¹ : ℚ) ^ 53) ^ 2 ≤ (1 + (2⁻¹ : ℚ) ^ 53) ^ n :=
        pow_le_pow_right₀ (by norm_num) hlen
      have h3 : (1 + (2⁻¹ : ℚ) ^ 53) ^ 2 * S ≤ (1 + (2⁻¹ : ℚ) ^ 53) ^ n * S :=
        mul_le_mul_of_nonneg_right hp hS
      have h4 : (1 + (2⁻¹ : ℚ) ^ 53) * y ≤ (1 + (2⁻¹ : ℚ) ^ 53) * ((1 + (2⁻¹ : ℚ) ^ 64) * S) :=
        mul_le_mul_of_nonneg_left (by linarith) (by norm_num)
      have h5 : (1 + (2⁻¹ : ℚ) ^ 53) * ((1 + (2⁻¹ : ℚ) ^ 64) * S) ≤ (1 + (2⁻¹ : ℚ) ^ 53) ^ 2 * S := by
        rw [← mul_assoc]
        exact mul_le_mul_of_nonneg_right (by norm_num) hS
      linarith

/-- A number just above a natural number is rounded to it. -/
theorem rne_le_nat_close {n : ℕ} {y : ℚ} (hn : n ≤ 2 ^ 20) (hy : y ≤ n + 2⁻¹ ^ 64 * n) :
    rne y ≤ n := by
  rcases le_or_gt y n with h | h
  · have := rne_mono h
    rwa [rne_nat n (hn.trans (by norm_num))] at this
  have hn' : (n : ℚ) ≤ 2 ^ 20 := by exact_mod_cast hn
  have hn1 : 1 ≤ n := by
    by_contra h0
    have : n = 0 := by omega
    subst this
    norm_num at hy
    norm_num at h
    linarith
  have hn1' : (1 : ℚ) ≤ n := by exact_mod_cast hn1
  have hy0 : 0 < y := by linarith
  obtain ⟨l1, l2⟩ := log_bounds hy0
  have hpos : 0 ≤ Int.log 2 y := by
    by_contra hneg
    have : (2 : ℚ) ^ (Int.log 2 y + 1) ≤ 2 ^ (0 : ℤ) :=
      zpow_le_zpow_right₀ (by norm_num) (by omega)
    rw [zpow_zero] at this
    linarith
  obtain ⟨L, hL⟩ := Int.eq_ofNat_of_zero_le hpos
  have hL20 : L ≤ 20 := by
    by_contra hgt
    have h1 : (2 : ℚ) ^ ((21 : ℕ) : ℤ) ≤ 2 ^ Int.log 2 y :=
      zpow_le_zpow_right₀ (by norm_num) (by omega)
    rw [zpow_natCast] at h1
    have h2 : (2⁻¹ : ℚ) ^ 64 * n ≤ 1 := by nlinarith [show (2⁻¹ : ℚ) ^ 64 * 2 ^ 20 ≤ 1 by norm_num]
    have h3 : (2 : ℚ) ^ 21 = 2 ^ 20 + 2 ^ 20 := by norm_num
    have h4 : (1 : ℚ) < 2 ^ 20 := by norm_num
    linarith
  -- `n` is a multiple of the unit of `y`
  obtain ⟨d, hd⟩ := pow_split (show Int.log 2 y - 52 ≤ 0 by omega)
  rw [zpow_zero] at hd
  have hnm : (n : ℚ) = ((n * 2 ^ d : ℤ) : ℚ) * (2 : ℚ) ^ (Int.log 2 y - 52) := by
    push_cast at hd ⊢
    rw [mul_assoc, ← hd, mul_one]
  obtain ⟨k, hk, -, -⟩ := rne_form hy0
  have h1 := rne_nearest_mul hy0 (n * 2 ^ d)
  rw [← hnm] at h1
  have hp := two_pow_pos (Int.log 2 y - 52)
  -- two multiples of the unit closer than the unit
  have hu : (2 : ℚ) * (2⁻¹ ^ 64 * n) < (2 : ℚ) ^ (Int.log 2 y - 52) := by
    have hn2 : (n : ℚ) < (2 : ℚ) ^ (Int.log 2 y + 1) := h.trans l2
    have : (2 : ℚ) ^ (Int.log 2 y + 1) = 2 ^ 53 * (2 : ℚ) ^ (Int.log 2 y - 52) := by
      rw [← pow_53]; norm_num
    rw [this] at hn2
    nlinarith [show (2 : ℚ) * (2⁻¹ ^ 64 * 2 ^ 53) ≤ 1 by norm_num]
  have h2 : |rne y - n| < (2 : ℚ) ^ (Int.log 2 y - 52) := by
    have h3 : |rne y - n| ≤ |rne y - y| + |(n : ℚ) - y| := by
      rw [show rne y - n = (rne y - y) - (n - y) by ring]
      exact abs_sub _ _
    have h4 : |(n : ℚ) - y| ≤ 2⁻¹ ^ 64 * n := by
      rw [abs_sub_comm, abs_of_pos (by linarith)]
      linarith
    linarith
  rw [hk, hnm, ← sub_mul, abs_mul, abs_of_pos hp] at h2
  have h3 : |((k - n * 2 ^ d : ℤ) : ℚ)| < 1 := by
    push_cast at h2 ⊢
    by_contra hge
    push Not at hge
    have := mul_le_mul_of_nonneg_right hge hp.le
    linarith
  have h4 : |k - n * 2 ^ d| < 1 := by exact_mod_cast h3
  have h5 : k = n * 2 ^ d := by
    have := Int.abs_lt_one_iff.1 h4
    omega
  rw [hk, h5, ← hnm]

theorem comp_le {v : List ℚ} (hv : ∀ x ∈ v, 0 ≤ x ∧ rne x = x) (hl : v.length ≤ 2 ^ 20)
    (h1 : ∀ x ∈ v, x ≤ 1) : compSum rne v ≤ v.length := by
  by_cases hne : v = []
  · subst hne; simp [compSum]
  obtain ⟨y, e1, e2⟩ := comp_close hv hl hne
  rw [e1]
  apply rne_le_nat_close hl
  have hS : v.sum ≤ v.length := by
    have := List.sum_le_card_nsmul v 1 h1
    simpa using this
  have := (abs_le.1 e2).2
  have h3 : (2⁻¹ : ℚ) ^ 64 * v.sum ≤ 2⁻¹ ^ 64 * v.length :=
    mul_le_mul_of_nonneg_left hS (by positivity)
  linarith

theorem comp_ones_aux (k : ℕ) : ∀ c : ℕ, c + k ≤ 2 ^ 53 →
    (List.replicate k (1 : ℚ)).foldl (compStep rne) ((c : ℚ), 0) = (((c + k : ℕ) : ℚ), 0) := by
  induction k with
  | zero => intro c _; simp
  | succ k ih =>
    intro c hc
    have h1 : rne ((c : ℚ) + 1) = ((c + 1 : ℕ) : ℚ) := by
      rw [← rne_nat (c + 1) (by omega)]
      push_cast
      rfl
    have := compStep_eq (s := ((c : ℚ), 0)) (x := 1) (Nat.cast_nonneg _) (rne_nat c (by omega))
      (by norm_num) (by simpa using rne_nat 1 (by norm_num))
    dsimp only at this
    rw [h1, show (0 : ℚ) + ((c : ℚ) + 1 - ((c + 1 : ℕ) : ℚ)) = 0 by push_cast; ring, rne_zero] at this
    rw [List.replicate_succ, List.foldl_cons, this, ih _ (by omega)]
    congr 2; omega

theorem comp_ones (m : ℕ) (hm : m ≤ 2 ^ 53) : compSum rne (List.replicate m 1) = m := by
  cases m with
  | zero => simp [compSum]
  | succ m =>
    have := comp_ones_aux m 1 (by omega)
    rw [Nat.cast_one] at this
    rw [List.replicate_succ]
    unfold compSum
    dsimp only
    rw [this]
    simp [add_comm]

theorem comp_mono {v w : List ℚ} (hv : ∀ x ∈ v, 0 ≤ x ∧ rne x = x)
    (hw : ∀ x ∈ w, 0 ≤ x ∧ rne x = x) (hl : v.length ≤ 2) (h : List.Forall₂ (· ≤ ·) v w) :
    compSum rne v ≤ compSum rne w := by
  match v, w, h, hl, hv, hw with
  | [], [], _, _, _, _ => exact le_rfl
  | [a], [b], .cons h _, _, _, _ => simpa [comp_single] using h
  | [a, b], [c, d], .cons h1 (.cons h2 _), _, hv, hw =>
    rw [comp_pair (hv a (by simp)).1 (hv a (by simp)).2 (hv b (by simp)).1 (hv b (by simp)).2,
      comp_pair (hw c (by simp)).1 (hw c (by simp)).2 (hw d (by simp)).1 (hw d (by simp)).2]
    exact rne_mono (add_le_add h1 h2)

theorem comp_zeros {v : List ℚ} (hv : ∀ x ∈ v, x = 0) : compSum rne v = 0 := by
  have key : ∀ l : List ℚ, (∀ x ∈ l, x = 0) → l.foldl (compStep rne) (0, 0) = (0, 0) := by
    intro l
    induction l with
    | nil => intro _; rfl
    | cons a l ih =>
      intro h
      have := compStep_eq (s := (0, 0)) (x := 0) le_rfl rne_zero le_rfl rne_zero
      rw [List.foldl_cons, h a (by simp), this]
      simp only [add_zero, rne_zero, sub_self]
      exact ih (fun x hx => h x (by simp [hx]))
  cases v with
  | nil => rfl
  | cons a v =>
    rw [hv a (by simp)]
    unfold compSum
    dsimp only
    rw [key v (fun x hx => hv x (by simp [hx]))]
    simp

theorem comp_double {v : List ℚ} (hv : ∀ x ∈ v, 0 ≤ x ∧ rne x = x) (hl : v.length ≤ 2 ^ 20) :
    compSum rne v ≤ compSum rne (v.map (fun x => rne (x * 2))) := by
  by_cases hne : v = []
  · subst hne; exact le_rfl
  have hd : ∀ x ∈ v, rne (x * 2) = x * 2 := by
    intro x hx
    obtain ⟨h1, h2⟩ := hv x hx
    rcases eq_or_lt_of_le h1 with h0 | h0
    · rw [← h0, zero_mul, rne_zero]
    · obtain ⟨k, hk, k1, k2⟩ := float_form h0 h2
      have := rne_exact k (Int.log 2 x - 52 + 1) (by rw [abs_of_nonneg (by omega)]; exact k2)
      rwa [zpow_add₀ (by norm_num), zpow_one, ← mul_assoc, ← hk] at this
  obtain ⟨y, e1, e2⟩ := comp_close hv hl hne
  obtain ⟨z, e3, e4⟩ := comp_close (v := v.map (fun x => rne (x * 2))) (by
      intro x hx
      obtain ⟨a, ha, rfl⟩ := List.mem_map.1 hx
      exact ⟨rne_nonneg (by have := (hv a ha).1; linarith), rne_idem _⟩)
    (by rwa [List.length_map]) (by simpa using hne)
  rw [e1, e3]
  apply rne_mono
  have hs : (v.map (fun x => rne (x * 2))).sum = v.sum * 2 := by
    rw [List.map_congr_left hd, List.sum_map_mul_right, List.map_id']
  rw [hs] at e4
  have hS : 0 ≤ v.sum := List.sum_nonneg (fun x hx => (hv x hx).1)
  have a1 := (abs_le.1 e2).2
  have a2 := (abs_le.1 e4).1
  have : (2⁻¹ : ℚ) ^ 64 * v.sum ≤ 1 / 4 * v.sum := mul_le_mul_of_nonneg_right (by norm_num) hS
  linarith

/-- Python's `float` before version 3.12: `sum` adds from left to right. -/
def binary64 : Rounding := rneArith.plain

/-- Python's `float` from version 3.12 on: `sum` compensates. -/
def binary64c : Rounding where
  toArith := { rneArith with sum := compSum rne }
  sumMax := ((2 ^ 20 : ℕ) : ℕ∞)
  monoMax := 2
  sum_bounds := fun _ hv hl => comp_bounds hv (Nat.cast_le.1 hl)
  sum_mono := fun _ _ hv hw hl h => comp_mono hv hw (by exact_mod_cast hl) h
  sum_le := fun _ hv hl _ h1 => comp_le hv (Nat.cast_le.1 hl) h1
  sum_ones := fun m _ hm => comp_ones m hm
  sum_single := fun x _ => comp_single x
  sum_zeros := fun _ hv => comp_zeros hv
  sum_double := fun _ hv hl => comp_double hv (Nat.cast_le.1 hl)

/-- The two sums differ: ten tenths are 1 with compensation, less than 1 without. -/
example : binary64.sum (List.replicate 10 (rne (1 / 10))) = 9007199254740991 / 9007199254740992 ∧
    binary64c.sum (List.replicate 10 (rne (1 / 10))) = 1 := by decide +kernel

end Fp
end Verif
