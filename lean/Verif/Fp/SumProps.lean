import Verif.Fp.SumLemmas

/-!
# Properties C157–C158: what changes with the `sum` of Python 3.12

`binary64` is Python's `float` with `sum` adding from left to right (before 3.12), `binary64c` with the
compensated `sum` of 3.12 and later. Everything else is the same code with the same rounding.
-/

namespace Verif
namespace Fp

open GramSpec IndexSpec EmdSpec

/-- C157. With at most two sizes of n-grams (the default is `(2, 4)`) every call of `add_word` and
`lookup` returns bit for bit the same, or raises the same, in both versions of Python. -/
theorem C157_lookup_same {cf : List Char → List Char} (hcf : ∀ w, cf (cf w) = cf w) {st : WL}
    (hr : ReachableF binary64 cf st) (hn : st.nList.length ≤ 2) (word topK : PyVal) (normalize : Bool)
    (hl : ∀ w, word = .str w → ∀ v ∈ st.wordList, (st.fold cf w).length + v.length + 2 ≤ 2 ^ 53) :
    ReachableF binary64c cf st ∧
    (∀ v, addWordF binary64 cf st v = addWordF binary64c cf st v) ∧
    lookupF binary64 (mean1F binary64) cf st word topK normalize =
      lookupF binary64c (mean1F binary64c) cf st word topK normalize := by
  refine ⟨hr, fun _ => rfl, ?_⟩
  change _ = lookupF binary64 (mean1F binary64c) cf st word topK normalize
  obtain ⟨st', hst, hR⟩ := hr.rounded
  obtain ⟨e1, e2, e3, _⟩ := hR.eqs
  have hi := hst.inv hcf
  unfold lookupF
  cases hc : st.checkLookup cf word topK with
  | error e => rfl
  | ok p =>
    obtain ⟨q, k⟩ := p
    have hq : ∀ v ∈ st'.wordList, q.length + v.length + 2 ≤ 2 ^ 53 := by
      unfold WL.checkLookup at hc
      split at hc
      · rename_i w
        split_ifs at hc
        split at hc
        · split_ifs at hc
          dsimp only at hc
          split_ifs at hc
          injection hc with hc
          injection hc with hc
          intro v hv
          rw [← hc]
          exact hl w rfl v (by rw [e2]; exact hv)
        · cases hc
      · cases hc
    have hT : ∀ v ∈ st'.wordList, ∀ n ∈ st'.nList, gramsTotal n q v ≤ 2 ^ 53 :=
      fun v hv n _ => (gramsTotal_le n q v).trans (hq v hv)
    rw [e1] at hn
    simp only [bind, Except.bind]
    rw [lookupSimilarityF_congr hi hR (agg := mean1F binary64) (agg' := mean1F binary64c)
      (fun v hv => mean1F_pair (lowerVecF_floats _ (hT v hv)) (by simpa [lowerVecF] using hn))
      (fun v hv => mean1F_pair (doubled_floats (lowerVecF_floats _ (hT v hv)))
        (by simpa [lowerVecF] using hn))
      (fun v hv => mean1F_pair (scoreVecF_floats _ (hT v hv)) (by simpa [scoreVecF] using hn))]

example : plain (lookupF binary64c (mean1F binary64c) id demoF (.str "bananas".toList) (.int 2) true) =
      .ok [("banana", 427780101967953 / 562949953421312, 6991302278679913 / 9007199254740992),
        ("bandana", 576353523740867 / 1125899906842624, 1367164172594615 / 2251799813685248)] ∧
    demoF.nList.length ≤ 2 := by
  constructor <;> decide +kernel

/-- C157. With three sizes the reported scores may differ in the last bit. -/
theorem C157_lookup_differs :
    ∃ st : WL, ReachableF binary64 id st ∧ ReachableF binary64c id st ∧ st.nList = [2, 3, 4] ∧
      plain (lookupF binary64 (mean1F binary64) id st (.str "papa".toList) (.int 1) true) =
        .ok [("paper", 117536224041243 / 281474976710656, 4790192330930437 / 9007199254740992)] ∧
      plain (lookupF binary64c (mean1F binary64c) id st (.str "papa".toList) (.int 1) true) =
        .ok [("paper", 7522318338639551 / 18014398509481984, 4790192330930437 / 9007199254740992)] := by
  refine ⟨runF binary64 id { demo₀ with nList := [2, 3, 4] } [.add (.str "paper".toList)], ?_, ?_, ?_, ?_, ?_⟩
  · exact ⟨.iter [2, 3, 4], true, 0, _, _, by decide +kernel, rfl⟩
  · exact ⟨.iter [2, 3, 4], true, 0, _, _, by decide +kernel, rfl⟩
  all_goals decide +kernel

/-- C157. However many sizes: the scores of both versions are within `4 (m + 1) u` of each other. -/
theorem C157_scores_close {ns : List ℤ} (hN : ns.length ≤ 2 ^ 20) {q w : List Char}
    (hl : q.length + w.length + 2 ≤ 2 ^ 53) :
    |mean1F binary64 (scoreVecF binary64 ns true q w) -
      mean1F binary64c (scoreVecF binary64c ns true q w)| ≤ 4 * ((ns.length + 1 : ℕ) : ℚ) / 2 ^ 53 := by
  have hT : ∀ n ∈ ns, gramsTotal n q w ≤ 2 ^ 53 := fun n _ => (gramsTotal_le n q w).trans hl
  have hf := scoreVecF_floats (R := binary64) true hT
  have hlen : (scoreVecF binary64 ns true q w).length = ns.length := by simp [scoreVecF]
  have e : scoreVecF binary64c ns true q w = scoreVecF binary64 ns true q w := rfl
  rw [e]
  set v := scoreVecF binary64 ns true q w with hv
  have m0 : 0 ≤ mean1 v := mean1_nonneg (fun x hx => (hf x hx).1)
  have m1 : mean1 v ≤ 1 := by
    unfold mean1
    apply div_le_one_of_le₀ _ (Nat.cast_nonneg _)
    have := List.sum_le_card_nsmul v 1 (by
      intro x hx
      obtain ⟨n, hn, rfl⟩ := List.mem_map.1 hx
      exact (scoreNF_bounds (hT n hn)).2.2)
    simpa using this
  have u1 : binary64.u = 1 / 2 ^ 53 := python_u (Or.inl rfl)
  have u2 : binary64c.u = 1 / 2 ^ 53 := python_u (Or.inr rfl)
  have hk : ((v.length + 1 : ℕ) : ℚ) * (1 / 2 ^ 53) ≤ 1 / 2 := by
    have : ((v.length + 1 : ℕ) : ℚ) ≤ 2 ^ 20 + 1 := by
      rw [hlen]; exact_mod_cast (by omega : ns.length + 1 ≤ 2 ^ 20 + 1)
    linarith
  have a1 : Rel binary64 (v.length + 1) 0 (mean1F binary64 v) (mean1 v) := by
    unfold Rel
    simp only [add_zero]
    exact mean1F_bounds hf (python_sumMax (Or.inl rfl) (by rw [hlen]; exact hN))
  have a2 : Rel binary64c (v.length + 1) 0 (mean1F binary64c v) (mean1 v) := by
    unfold Rel
    simp only [add_zero]
    exact mean1F_bounds (R := binary64c) hf (python_sumMax (Or.inr rfl) (by rw [hlen]; exact hN))
  have b1 := a1.err (by rw [u1]; exact hk) (by linarith)
  have b2 := a2.err (by rw [u2]; exact hk) (by linarith)
  rw [u1, add_zero] at b1
  rw [u2, add_zero] at b2
  rw [hlen] at b1 b2
  have hm : (0 : ℚ) ≤ ((ns.length + 1 : ℕ) : ℚ) := Nat.cast_nonneg _
  have c : 2 * ((ns.length + 1 : ℕ) : ℚ) * (1 / 2 ^ 53) * mean1 v ≤
      2 * ((ns.length + 1 : ℕ) : ℚ) * (1 / 2 ^ 53) := by
    refine mul_le_of_le_one_right ?_ m1
    positivity
  have := abs_sub_le (mean1F binary64 v) (mean1 v) (mean1F binary64c v)
  rw [abs_sub_comm (mean1 v)] at this
  refine this.trans (le_trans (add_le_add (b1.trans c) (b2.trans c)) ?_)
  linarith

/-- C157. `ngram_movers_distance` and `emd_1d_dp` do not use `sum`; the other three distances agree in
both versions if the shorter list has at most two points. -/
theorem C157_distances_same (xs ys : List ℚ) :
    emdDpF binary64 xs ys = emdDpF binary64c xs ys ∧
    (∀ a b n invert normalize, nmdF binary64 a b n invert normalize =
      nmdF binary64c a b n invert normalize) ∧
    (min xs.length ys.length ≤ 2 →
      emdSlowF binary64 xs ys = emdSlowF binary64c xs ys ∧
      emdHybridF binary64 xs ys = emdHybridF binary64c xs ys ∧
      emdOldF binary64 xs ys = emdOldF binary64c xs ys) := by
  refine ⟨rfl, fun _ _ _ _ _ => rfl, fun h => ⟨emdSlowF_pair h, ?_, ?_⟩⟩
  · exact emdShellF_pair (fun xs ys _ => hybridMainF_eq xs ys) h
  · exact emdShellF_pair (fun _ _ h => oldMainF_pair h) h

example : emdOldF binary64c [1 / 10, 4 / 5, 9 / 10] [1 / 5, 3 / 10] =
    .ok (3602879701896397 / 2251799813685248) := by decide +kernel

/-- C157. With three points each they may differ. -/
theorem C157_distances_differ :
    ∃ xs ys : List ℚ, xs.length = 3 ∧ ys.length = 3 ∧
      (∀ x ∈ xs ++ ys, 0 ≤ x ∧ x ≤ 1 ∧ binary64.fl x = x) ∧
      emdSlowF binary64 xs ys ≠ emdSlowF binary64c xs ys ∧
      emdHybridF binary64 xs ys ≠ emdHybridF binary64c xs ys ∧
      emdOldF binary64 xs ys ≠ emdOldF binary64c xs ys := by
  refine ⟨[0, 1 / 10, 1 / 5].map binary64.fl, [3 / 5, 3 / 5, 7 / 10].map binary64.fl, ?_, ?_, ?_, ?_, ?_, ?_⟩
  all_goals decide +kernel

/-- C158. The compensated `sum` of up to 2^20 non-negative floats is the nearest float of a number
within a relative `2^-64` of the exact sum: its error is hardly more than that of a single rounding,
however many terms, and small integers are summed exactly. -/
theorem C158_compensated_sum {v : List ℚ} (hv : ∀ x ∈ v, 0 ≤ x ∧ rne x = x)
    (hl : v.length ≤ 2 ^ 20) :
    |binary64c.sum v - v.sum| ≤ (1 / 2 ^ 53 + 1 / 2 ^ 63) * v.sum := by
  rcases eq_or_ne v [] with rfl | hne
  · decide +kernel
  obtain ⟨y, hy, hc⟩ := comp_close hv hl hne
  have hs : 0 ≤ v.sum := List.sum_nonneg (fun x hx => (hv x hx).1)
  have e : binary64c.sum v = rne y := hy
  have hy0 : 0 ≤ y := by
    have := (abs_le.1 hc).1
    norm_num at this
    linarith
  have h1 := fl_upper (R := binary64) hy0
  have h2 := fl_lower (R := binary64) hy0
  rw [python_u (Or.inl rfl)] at h1 h2
  change rne y ≤ _ at h1
  change _ ≤ rne y at h2
  rw [e]
  obtain ⟨c1, c2⟩ := abs_le.1 hc
  rw [abs_le]
  constructor <;> norm_num at c1 c2 h1 h2 ⊢ <;> linarith

/-- Ten tenths: one rounding error against many. -/
example : binary64c.sum (List.replicate 10 (rne (1 / 10))) = 1 ∧
    binary64.sum (List.replicate 10 (rne (1 / 10))) ≠ 1 := by constructor <;> decide +kernel

/-- C158. Hence with the compensated `sum` the mean of any number of scores up to 2^20 is within
`2.01` roundings of the exact mean of the computed scores. -/
theorem C158_mean_error {v : List ℚ} (hv : Floats binary64c v) (hl : v.length ≤ 2 ^ 20) :
    |mean1F binary64c v - mean1 v| ≤ 201 / 100 / 2 ^ 53 * mean1 v := by
  have hs : 0 ≤ v.sum := List.sum_nonneg (fun x hx => (hv x hx).1)
  have hn : (0 : ℚ) ≤ v.length := Nat.cast_nonneg _
  have h := abs_le.1 (C158_compensated_sum hv hl)
  have h0 : 0 ≤ binary64c.sum v := by
    have := h.1
    norm_num at this
    linarith
  have d0 : 0 ≤ binary64c.sum v / v.length := div_nonneg h0 hn
  have h1 := fl_upper (R := binary64c) d0
  have h2 := fl_lower (R := binary64c) d0
  rw [python_u (Or.inr rfl)] at h1 h2
  have c1 : binary64c.sum v / v.length ≤ (1 + (1 / 2 ^ 53 + 1 / 2 ^ 63)) * mean1 v := by
    unfold mean1
    rw [← mul_div_assoc]
    exact div_le_div_of_nonneg_right (by linarith [h.2]) hn
  have c2 : (1 - (1 / 2 ^ 53 + 1 / 2 ^ 63)) * mean1 v ≤ binary64c.sum v / v.length := by
    unfold mean1
    rw [← mul_div_assoc]
    exact div_le_div_of_nonneg_right (by linarith [h.1]) hn
  have m0 : 0 ≤ mean1 v := mean1_nonneg (fun x hx => (hv x hx).1)
  change |binary64c.fl (binary64c.sum v / v.length) - mean1 v| ≤ _
  rw [abs_le]
  constructor <;> norm_num at h1 h2 c1 c2 ⊢ <;> linarith

/-- A hundred equal scores. -/
example : mean1F binary64c (List.replicate 100 (rne (1 / 10))) = rne (1 / 10) ∧
    mean1F binary64 (List.replicate 100 (rne (1 / 10))) ≠ rne (1 / 10) := by
  constructor <;> decide +kernel

end Fp
end Verif
